import Verif.SpecThreads
import Verif.Model.Generic
import Verif.Model.Copy
import Verif.Model.Query
import Verif.Model.Shift
import Verif.Model.Ref
import Verif.Props.Refs
import Mathlib.Tactic.Choose
/- The modelled functions as code: sequences of loads and stores of single words. -/
namespace BitLib
variable {w : Nat} {α β : Type}

namespace Code

theorem bind_run (c : Code w α) (f : α → Code w β) : ∀ m, (c.bind f).run m = (c.run >>= fun a => (f a).run) m := by
  induction c with
  | ret a => intro m; rfl
  | stop e => intro m; rfl
  | load a k ih =>
    intro m
    show ((BitLib.load a : M w _) m >>= fun p => ((k p.1).bind f).run p.2) = (((BitLib.load a : M w _) m >>= fun p => (k p.1).run p.2) >>= fun p => (f p.1).run p.2)
    cases (BitLib.load a : M w _) m with
    | error e => rfl
    | ok p => exact ih p.1 p.2
  | store a x k ih =>
    intro m
    show ((BitLib.store a x : M w _) m >>= fun p => (k.bind f).run p.2) = (((BitLib.store a x : M w _) m >>= fun p => k.run p.2) >>= fun p => (f p.1).run p.2)
    cases (BitLib.store a x : M w _) m with
    | error e => rfl
    | ok p => exact ih p.2

theorem bind_stores (c : Code w α) (f : α → Code w β) (a : Int) (h : (c.bind f).Stores a) : c.Stores a ∨ ∃ r, (f r).Stores a := by
  induction c with
  | ret r => exact Or.inr ⟨r, h⟩
  | stop e => cases h
  | load b k ih =>
    cases h with
    | load _ _ x hx =>
      rcases ih x hx with h | h
      · exact Or.inl (.load b k x h)
      · exact Or.inr h
  | store b x k ih =>
    cases h with
    | here => exact Or.inl (.here _ _ _)
    | store _ _ _ hx =>
      rcases ih hx with h | h
      · exact Or.inl (.store b x k h)
      · exact Or.inr h

end Code

namespace HasCode
variable {P : Int → Prop}

theorem pure (a : α) : HasCode P (Pure.pure a : M w α) := ⟨.ret a, fun _ => rfl, fun _ h => nomatch h⟩

theorem ub (e : UB) : HasCode P (BitLib.ub e : M w α) := ⟨.stop e, fun _ => rfl, fun _ h => nomatch h⟩

theorem lift (e : Except UB α) : HasCode P (BitLib.lift e : M w α) := by
  cases e with
  | ok a => exact ⟨.ret a, fun _ => rfl, fun _ h => nomatch h⟩
  | error e => exact ⟨.stop e, fun _ => rfl, fun _ h => nomatch h⟩

theorem load (a : Int) : HasCode P (BitLib.load a : M w _) := by
  refine ⟨.load a fun x => .ret x, fun m => ?_, ?_⟩
  · show ((BitLib.load a : M w _) m >>= fun p => .ok (p.1, p.2)) = _
    cases (BitLib.load a : M w _) m <;> rfl
  · intro b h
    cases h with
    | load _ _ x hx => cases hx

theorem store (a : Int) (x : BitVec w) (h : P a) : HasCode P (BitLib.store a x) := by
  refine ⟨.store a x (.ret ()), fun m => ?_, ?_⟩
  · show ((BitLib.store a x : M w _) m >>= fun p => .ok ((), p.2)) = _
    cases (BitLib.store a x : M w _) m <;> rfl
  · intro b hb
    cases hb with
    | here => exact h
    | store _ _ _ hx => cases hx

theorem bind {x : M w α} {f : α → M w β} (hx : HasCode P x) (hf : ∀ a, HasCode P (f a)) : HasCode P (x >>= f) := by
  classical
  obtain ⟨c, hc, sc⟩ := hx
  choose d hd sd using hf
  refine ⟨c.bind d, fun m => ?_, fun a h => ?_⟩
  · rw [Code.bind_run]
    show (c.run m >>= fun p => (d p.1).run p.2) = (x m >>= fun p => f p.1 p.2)
    rw [hc m]
    cases x m with
    | error e => rfl
    | ok p => exact hd p.1 p.2
  · rcases Code.bind_stores c d a h with h | ⟨r, h⟩
    · exact sc a h
    · exact sd r a h

theorem ite {c : Prop} [Decidable c] {x y : M w α} (hx : HasCode P x) (hy : HasCode P y) : HasCode P (if c then x else y) := by
  split
  · exact hx
  · exact hy

theorem assertM {c : Prop} [Decidable c] : HasCode P (BitLib.assertM c : M w Unit) := ite (pure ()) (ub _)

end HasCode

theorem anyWord (a : Int) : AnyWord a := trivial

/-- Proves `HasCode` from the text of the function; extended with a lemma for each function below. -/
syntax "code1" : tactic
macro_rules | `(tactic| code1) => `(tactic| dsimp only)
macro_rules | `(tactic| code1) => `(tactic| split)
macro_rules | `(tactic| code1) => `(tactic| intro _)
macro_rules | `(tactic| code1) => `(tactic| with_reducible exact HasCode.pure _)
macro_rules | `(tactic| code1) => `(tactic| with_reducible exact HasCode.ub _)
macro_rules | `(tactic| code1) => `(tactic| with_reducible exact HasCode.lift _)
macro_rules | `(tactic| code1) => `(tactic| with_reducible exact HasCode.load _)
macro_rules | `(tactic| code1) => `(tactic| with_reducible exact HasCode.store _ _ (anyWord _))
macro_rules | `(tactic| code1) => `(tactic| with_reducible exact HasCode.assertM)
macro_rules | `(tactic| code1) => `(tactic| with_reducible apply HasCode.bind)
macro_rules | `(tactic| code1) => `(tactic| with_reducible apply HasCode.ite)
macro_rules | `(tactic| code1) => `(tactic| with_reducible assumption)
macro "code" : tactic => `(tactic| repeat' code1)

variable {P : Int → Prop}


theorem hc_mk? (a : Int) (pos : Nat) : HasCode P (BitIter.mk? a pos : M w _) := by unfold BitIter.mk?; code
macro_rules | `(tactic| code1) => `(tactic| with_reducible exact hc_mk? _ _)
theorem hc_assertViable (f l : BitIter w) : HasCode P (assertViable f l) := by unfold assertViable; code
macro_rules | `(tactic| code1) => `(tactic| with_reducible exact hc_assertViable _ _)
theorem hc_distance (f l : BitIter w) : HasCode P (distance f l) := by unfold distance; code
macro_rules | `(tactic| code1) => `(tactic| with_reducible exact hc_distance _ _)
theorem hc_wordDist (f l : Int) : HasCode P (wordDist f l : M w _) := by unfold wordDist; code
macro_rules | `(tactic| code1) => `(tactic| with_reducible exact hc_wordDist _ _)
theorem hc_getWord (S : ShiftSem w) (f : BitIter w) (n : Nat) : HasCode P (getWord S f n) := by unfold getWord; code
macro_rules | `(tactic| code1) => `(tactic| with_reducible exact hc_getWord _ _ _)
theorem hc_blendAt (S : ShiftSem w) (it : Int) (x : BitVec w) (a n : Nat) : HasCode AnyWord (blendAt S it x a n) := by unfold blendAt; code
macro_rules | `(tactic| code1) => `(tactic| with_reducible exact hc_blendAt _ _ _ _ _)
theorem hc_blendLowAt (S : ShiftSem w) (it : Int) (x : BitVec w) (n : Nat) : HasCode AnyWord (blendLowAt S it x n) := by unfold blendLowAt; code
macro_rules | `(tactic| code1) => `(tactic| with_reducible exact hc_blendLowAt _ _ _ _)
theorem hc_writeWord (S : ShiftSem w) (x : BitVec w) (d : BitIter w) (n : Nat) : HasCode AnyWord (writeWord S x d n) := by unfold writeWord; code
macro_rules | `(tactic| code1) => `(tactic| with_reducible exact hc_writeWord _ _ _ _)

theorem hc_stdCopyN (n : Nat) : ∀ s d : Int, HasCode AnyWord (stdCopyN n s d : M w _) := by
  induction n with
  | zero => intro s d; exact HasCode.pure _
  | succ n ih => intro s d; unfold stdCopyN; code; exact ih _ _
theorem hc_stdCopy (f l d : Int) : HasCode AnyWord (stdCopy f l d : M w _) := by unfold stdCopy; code; exact hc_stdCopyN _ _ _
macro_rules | `(tactic| code1) => `(tactic| with_reducible exact hc_stdCopy _ _ _)
theorem hc_stdCopyBackwardN (n : Nat) : ∀ s d : Int, HasCode AnyWord (stdCopyBackwardN n s d : M w _) := by
  induction n with
  | zero => intro s d; exact HasCode.pure _
  | succ n ih => intro s d; unfold stdCopyBackwardN; code; exact ih _ _
theorem hc_stdCopyBackward (f l d : Int) : HasCode AnyWord (stdCopyBackward f l d : M w _) := by
  unfold stdCopyBackward; code; exact hc_stdCopyBackwardN _ _ _
macro_rules | `(tactic| code1) => `(tactic| with_reducible exact hc_stdCopyBackward _ _ _)
theorem hc_stdFillN (x : BitVec w) (n : Nat) : ∀ d : Int, HasCode AnyWord (stdFillN x n d) := by
  induction n with
  | zero => intro d; exact HasCode.pure _
  | succ n ih => intro d; unfold stdFillN; code; exact ih _
theorem hc_stdFill (f l : Int) (x : BitVec w) : HasCode AnyWord (stdFill f l x) := by unfold stdFill; code; exact hc_stdFillN _ _ _
macro_rules | `(tactic| code1) => `(tactic| with_reducible exact hc_stdFill _ _ _)
theorem hc_stdFindIfN (p : BitVec w → Bool) (n : Nat) : ∀ a : Int, HasCode P (stdFindIfN p n a) := by
  induction n with
  | zero => intro d; exact HasCode.pure _
  | succ n ih => intro d; unfold stdFindIfN; code; exact ih _
theorem hc_stdFindIf (f l : Int) (p : BitVec w → Bool) : HasCode P (stdFindIf f l p) := by unfold stdFindIf; code; exact hc_stdFindIfN _ _ _
macro_rules | `(tactic| code1) => `(tactic| with_reducible exact hc_stdFindIf _ _ _)
theorem hc_stdEqualN (n : Nat) : ∀ a b : Int, HasCode P (stdEqualN n a b : M w _) := by
  induction n with
  | zero => intro a b; exact HasCode.pure _
  | succ n ih => intro a b; unfold stdEqualN; code; exact ih _ _
theorem hc_stdEqual (f l d : Int) : HasCode P (stdEqual f l d : M w _) := by unfold stdEqual; code; exact hc_stdEqualN _ _ _
macro_rules | `(tactic| code1) => `(tactic| with_reducible exact hc_stdEqual _ _ _)
theorem hc_stdReverseN (n : Nat) : ∀ a b : Int, HasCode AnyWord (stdReverseN n a b : M w _) := by
  induction n using Nat.strongRecOn with
  | _ n ih =>
    intro a b
    match n with
    | 0 => exact HasCode.pure _
    | 1 => exact HasCode.pure _
    | n + 2 => unfold stdReverseN; code; exact ih n (by omega) _ _
theorem hc_stdReverse (f l : Int) : HasCode AnyWord (stdReverse f l : M w _) := by unfold stdReverse; code; exact hc_stdReverseN _ _ _
macro_rules | `(tactic| code1) => `(tactic| with_reducible exact hc_stdReverse _ _)
theorem hc_stdTransformN (g : BitVec w → BitVec w) (n : Nat) : ∀ s d : Int, HasCode AnyWord (stdTransformN g n s d) := by
  induction n with
  | zero => intro s d; exact HasCode.pure _
  | succ n ih => intro s d; unfold stdTransformN; code; exact ih _ _
theorem hc_stdTransform (f l d : Int) (g : BitVec w → BitVec w) : HasCode AnyWord (stdTransform f l d g) := by
  unfold stdTransform; code; exact hc_stdTransformN _ _ _ _
macro_rules | `(tactic| code1) => `(tactic| with_reducible exact hc_stdTransform _ _ _ _)
theorem hc_stdTransform2N (g : BitVec w → BitVec w → BitVec w) (n : Nat) : ∀ s t d : Int, HasCode AnyWord (stdTransform2N g n s t d) := by
  induction n with
  | zero => intro s t d; exact HasCode.pure _
  | succ n ih => intro s t d; unfold stdTransform2N; code; exact ih _ _ _
theorem hc_stdTransform2 (f l s d : Int) (g : BitVec w → BitVec w → BitVec w) : HasCode AnyWord (stdTransform2 f l s d g) := by
  unfold stdTransform2; code; exact hc_stdTransform2N _ _ _ _ _
macro_rules | `(tactic| code1) => `(tactic| with_reducible exact hc_stdTransform2 _ _ _ _ _)
theorem hc_stdSwapRangesN (n : Nat) : ∀ a b : Int, HasCode AnyWord (stdSwapRangesN n a b : M w _) := by
  induction n with
  | zero => intro a b; exact HasCode.pure _
  | succ n ih => intro a b; unfold stdSwapRangesN; code; exact ih _ _
theorem hc_stdSwapRanges (f l d : Int) : HasCode AnyWord (stdSwapRanges f l d : M w _) := by
  unfold stdSwapRanges; code; exact hc_stdSwapRangesN _ _ _
macro_rules | `(tactic| code1) => `(tactic| with_reducible exact hc_stdSwapRanges _ _ _)

theorem hc_copyHead (S : ShiftSem w) (f d : BitIter w) (n : Nat) : HasCode AnyWord (copyHead S f d n) := by unfold copyHead; code
macro_rules | `(tactic| code1) => `(tactic| with_reducible exact hc_copyHead _ _ _ _)
theorem hc_copyTail (S : ShiftSem w) (n : Nat) (f : BitIter w) (it : Int) : HasCode AnyWord (copyTail S n f it) := by unfold copyTail; code
macro_rules | `(tactic| code1) => `(tactic| with_reducible exact hc_copyTail _ _ _ _)
theorem hc_copyLoop (S : ShiftSem w) (k : Nat) : ∀ (n : Nat) (f : BitIter w) (it : Int), HasCode AnyWord (copyLoop S k n f it) := by
  induction k with
  | zero => intros; exact HasCode.ub _
  | succ k ih => intro n f it; unfold copyLoop; code; exact ih _ _ _
macro_rules | `(tactic| code1) => `(tactic| with_reducible exact hc_copyLoop _ _ _ _ _)
theorem hc_copy (S : ShiftSem w) (f l d : BitIter w) : HasCode AnyWord (copy S f l d) := by unfold copy; code

theorem hc_moveHead (S : ShiftSem w) (f d : BitIter w) (n : Nat) : HasCode AnyWord (moveHead S f d n) := by unfold moveHead; code
macro_rules | `(tactic| code1) => `(tactic| with_reducible exact hc_moveHead _ _ _ _)
theorem hc_moveTail (S : ShiftSem w) (n : Nat) (f : BitIter w) (it : Int) : HasCode AnyWord (moveTail S n f it) := by unfold moveTail; code
macro_rules | `(tactic| code1) => `(tactic| with_reducible exact hc_moveTail _ _ _ _)
theorem hc_moveLoop (S : ShiftSem w) (k : Nat) : ∀ (n : Nat) (f : BitIter w) (it : Int), HasCode AnyWord (moveLoop S k n f it) := by
  induction k with
  | zero => intros; exact HasCode.ub _
  | succ k ih => intro n f it; unfold moveLoop; code; exact ih _ _ _
macro_rules | `(tactic| code1) => `(tactic| with_reducible exact hc_moveLoop _ _ _ _ _)
theorem hc_move (S : ShiftSem w) (f l d : BitIter w) : HasCode AnyWord (move S f l d) := by unfold move; code

theorem hc_copyBackwardHead (S : ShiftSem w) (f d : BitIter w) (n : Nat) : HasCode AnyWord (copyBackwardHead S f d n) := by
  unfold copyBackwardHead; code
macro_rules | `(tactic| code1) => `(tactic| with_reducible exact hc_copyBackwardHead _ _ _ _)
theorem hc_copyBackwardTail (S : ShiftSem w) (n : Nat) (f : BitIter w) (it : Int) : HasCode AnyWord (copyBackwardTail S n f it) := by
  unfold copyBackwardTail; code
macro_rules | `(tactic| code1) => `(tactic| with_reducible exact hc_copyBackwardTail _ _ _ _)
theorem hc_copyBackwardLoop (S : ShiftSem w) (k : Nat) :
    ∀ (n : Nat) (f : BitIter w) (it : Int), HasCode AnyWord (copyBackwardLoop S k n f it) := by
  induction k with
  | zero => intros; exact HasCode.ub _
  | succ k ih => intro n f it; unfold copyBackwardLoop; code; exact ih _ _ _
macro_rules | `(tactic| code1) => `(tactic| with_reducible exact hc_copyBackwardLoop _ _ _ _ _)
theorem hc_copyBackward (S : ShiftSem w) (f l d : BitIter w) : HasCode AnyWord (copyBackward S f l d) := by unfold copyBackward; code

theorem hc_transformHead (S : ShiftSem w) (op : BitVec w → BitVec w) (f d : BitIter w) (n : Nat) : HasCode AnyWord (transformHead S op f d n) := by
  unfold transformHead; code
macro_rules | `(tactic| code1) => `(tactic| with_reducible exact hc_transformHead _ _ _ _ _)
theorem hc_transformTail (S : ShiftSem w) (op : BitVec w → BitVec w) (n : Nat) (f : BitIter w) (it : Int) :
    HasCode AnyWord (transformTail S op n f it) := by unfold transformTail; code
macro_rules | `(tactic| code1) => `(tactic| with_reducible exact hc_transformTail _ _ _ _ _)
theorem hc_transformLoop (S : ShiftSem w) (op : BitVec w → BitVec w) (k : Nat) :
    ∀ (n : Nat) (f : BitIter w) (it : Int), HasCode AnyWord (transformLoop S op k n f it) := by
  induction k with
  | zero => intros; exact HasCode.ub _
  | succ k ih => intro n f it; unfold transformLoop; code; exact ih _ _ _
macro_rules | `(tactic| code1) => `(tactic| with_reducible exact hc_transformLoop _ _ _ _ _ _)
theorem hc_transform (S : ShiftSem w) (op : BitVec w → BitVec w) (f l d : BitIter w) : HasCode AnyWord (transform S op f l d) := by
  unfold transform; code

theorem hc_transform2Head (S : ShiftSem w) (op : BitVec w → BitVec w → BitVec w) (f1 f2 d : BitIter w) (n : Nat) :
    HasCode AnyWord (transform2Head S op f1 f2 d n) := by unfold transform2Head; code
macro_rules | `(tactic| code1) => `(tactic| with_reducible exact hc_transform2Head _ _ _ _ _ _)
theorem hc_transform2Tail (S : ShiftSem w) (op : BitVec w → BitVec w → BitVec w) (n : Nat) (f1 f2 : BitIter w) (it : Int) :
    HasCode AnyWord (transform2Tail S op n f1 f2 it) := by unfold transform2Tail; code
macro_rules | `(tactic| code1) => `(tactic| with_reducible exact hc_transform2Tail _ _ _ _ _ _)
theorem hc_transform2Loop (S : ShiftSem w) (op : BitVec w → BitVec w → BitVec w) (k : Nat) :
    ∀ (n : Nat) (f1 f2 : BitIter w) (it : Int), HasCode AnyWord (transform2Loop S op k n f1 f2 it) := by
  induction k with
  | zero => intros; exact HasCode.ub _
  | succ k ih => intro n f1 f2 it; unfold transform2Loop; code; exact ih _ _ _ _
macro_rules | `(tactic| code1) => `(tactic| with_reducible exact hc_transform2Loop _ _ _ _ _ _ _)
theorem hc_transform2 (S : ShiftSem w) (op : BitVec w → BitVec w → BitVec w) (f1 l1 f2 d : BitIter w) :
    HasCode AnyWord (transform2 S op f1 l1 f2 d) := by unfold transform2; code

theorem hc_fill (S : ShiftSem w) (f l : BitIter w) (v : Bool) : HasCode AnyWord (fill S f l v) := by unfold fill; code
theorem hc_findWords (it : Int) (l : BitIter w) (v : Bool) : HasCode P (findWords it l v) := by unfold findWords; code
macro_rules | `(tactic| code1) => `(tactic| with_reducible exact hc_findWords _ _ _)
theorem hc_find (S : ShiftSem w) (f l : BitIter w) (v : Bool) : HasCode P (find S f l v) := by unfold find; code
theorem hc_equalTail (S : ShiftSem w) (n : Nat) (f : BitIter w) (it : Int) : HasCode P (equalTail S n f it) := by unfold equalTail; code
macro_rules | `(tactic| code1) => `(tactic| with_reducible exact hc_equalTail _ _ _ _)
theorem hc_equalLoop (S : ShiftSem w) (k : Nat) : ∀ (n : Nat) (f : BitIter w) (it : Int), HasCode P (equalLoop S k n f it) := by
  induction k with
  | zero => intros; exact HasCode.ub _
  | succ k ih => intro n f it; unfold equalLoop; code; exact ih _ _ _
macro_rules | `(tactic| code1) => `(tactic| with_reducible exact hc_equalLoop _ _ _ _ _)
theorem hc_equalBody (S : ShiftSem w) (n : Nat) (f l : BitIter w) (it : Int) : HasCode P (equalBody S n f l it) := by unfold equalBody; code
macro_rules | `(tactic| code1) => `(tactic| with_reducible exact hc_equalBody _ _ _ _ _)
theorem hc_equal (S : ShiftSem w) (f l d : BitIter w) : HasCode P (equal S f l d) := by unfold equal; code
theorem hc_popcntWords (n : Nat) : ∀ a : Int, HasCode P (popcntWords n a : M w _) := by
  induction n with
  | zero => intros; exact HasCode.pure _
  | succ n ih => intro a; unfold popcntWords; code; exact ih _
macro_rules | `(tactic| code1) => `(tactic| with_reducible exact hc_popcntWords _ _)
theorem hc_count (S : ShiftSem w) (f l : BitIter w) (v : Bool) : HasCode P (count S f l v) := by unfold count; code

theorem hc_wordShiftLeft (f l n : Int) : HasCode AnyWord (wordShiftLeft f l n : M w _) := by unfold wordShiftLeft; code
macro_rules | `(tactic| code1) => `(tactic| with_reducible exact hc_wordShiftLeft _ _ _)
theorem hc_wordShiftRight (f l n : Int) : HasCode AnyWord (wordShiftRight f l n : M w _) := by unfold wordShiftRight; code
macro_rules | `(tactic| code1) => `(tactic| with_reducible exact hc_wordShiftRight _ _ _)
theorem hc_shiftLeftAlign (S : ShiftSem w) (f mid : BitIter w) (d n : Int) : HasCode AnyWord (shiftLeftAlign S f mid d n) := by
  unfold shiftLeftAlign; code
macro_rules | `(tactic| code1) => `(tactic| with_reducible exact hc_shiftLeftAlign _ _ _ _ _)
theorem hc_shiftLeftLoop (S : ShiftSem w) (o : Nat) (lb : Int) (k : Nat) : ∀ a b : Int, HasCode AnyWord (shiftLeftLoop S o lb k a b) := by
  induction k with
  | zero => intros; exact HasCode.ub _
  | succ k ih => intro a b; unfold shiftLeftLoop; code; exact ih _ _
macro_rules | `(tactic| code1) => `(tactic| with_reducible exact hc_shiftLeftLoop _ _ _ _ _ _)
theorem hc_shiftLeftMain (S : ShiftSem w) (f mid l : BitIter w) (n : Int) : HasCode AnyWord (shiftLeftMain S f mid l n) := by
  unfold shiftLeftMain; code
macro_rules | `(tactic| code1) => `(tactic| with_reducible exact hc_shiftLeftMain _ _ _ _ _)
theorem hc_shiftLeft (S : ShiftSem w) (f l : BitIter w) (n : Int) : HasCode AnyWord (shiftLeft S f l n) := by unfold shiftLeft; code
macro_rules | `(tactic| code1) => `(tactic| with_reducible exact hc_shiftLeft _ _ _ _)
theorem hc_shiftRightLoop (S : ShiftSem w) (o : Nat) (fb : Int) (k : Nat) : ∀ a b : Int, HasCode AnyWord (shiftRightLoop S o fb k a b) := by
  induction k with
  | zero => intros; exact HasCode.ub _
  | succ k ih => intro a b; unfold shiftRightLoop; code; exact ih _ _
macro_rules | `(tactic| code1) => `(tactic| with_reducible exact hc_shiftRightLoop _ _ _ _ _ _)
theorem hc_shiftRightWords (S : ShiftSem w) (f mid l : BitIter w) (o : Nat) : HasCode AnyWord (shiftRightWords S f mid l o) := by
  unfold shiftRightWords; code
macro_rules | `(tactic| code1) => `(tactic| with_reducible exact hc_shiftRightWords _ _ _ _ _)
theorem hc_shiftRightTail (S : ShiftSem w) (f mid l : BitIter w) (n : Int) : HasCode AnyWord (shiftRightTail S f mid l n) := by
  unfold shiftRightTail; code
macro_rules | `(tactic| code1) => `(tactic| with_reducible exact hc_shiftRightTail _ _ _ _ _)
theorem hc_shiftRightMain (S : ShiftSem w) (f mid l : BitIter w) (n : Int) : HasCode AnyWord (shiftRightMain S f mid l n) := by
  unfold shiftRightMain; code
macro_rules | `(tactic| code1) => `(tactic| with_reducible exact hc_shiftRightMain _ _ _ _ _)
theorem hc_shiftRight (S : ShiftSem w) (f l : BitIter w) (n : Int) : HasCode AnyWord (shiftRight S f l n) := by unfold shiftRight; code
macro_rules | `(tactic| code1) => `(tactic| with_reducible exact hc_shiftRight _ _ _ _)

theorem hc_reverseShift (S : ShiftSem w) (fb lb wend : Int) (fp gap : Nat) : HasCode AnyWord (reverseShift S fb lb wend fp gap) := by
  unfold reverseShift; code
macro_rules | `(tactic| code1) => `(tactic| with_reducible exact hc_reverseShift _ _ _ _ _ _)
theorem hc_reverseFirst (S : ShiftSem w) (fb : Int) (fp : Nat) (v : BitVec w) : HasCode AnyWord (reverseFirst S fb fp v) := by
  unfold reverseFirst; code
macro_rules | `(tactic| code1) => `(tactic| with_reducible exact hc_reverseFirst _ _ _ _)
theorem hc_reverseLast (S : ShiftSem w) (fb : Int) (fp : Nat) (v : BitVec w) : HasCode AnyWord (reverseLast S fb fp v) := by
  unfold reverseLast; code
macro_rules | `(tactic| code1) => `(tactic| with_reducible exact hc_reverseLast _ _ _ _)
theorem hc_reverse (S : ShiftSem w) (f l : BitIter w) : HasCode AnyWord (reverse S f l) := by unfold reverse; code

theorem hc_bitexch3 (a b : Int) (msk : BitVec w) : HasCode AnyWord (bitexch3 a b msk) := by unfold bitexch3; code
macro_rules | `(tactic| code1) => `(tactic| with_reducible exact hc_bitexch3 _ _ _)
theorem hc_bitexch4 (S : ShiftSem w) (a b : Int) (s n : Nat) : HasCode AnyWord (bitexch4 S a b s n) := by unfold bitexch4; code
macro_rules | `(tactic| code1) => `(tactic| with_reducible exact hc_bitexch4 _ _ _ _ _)
theorem hc_exchStepL (S : ShiftSem w) (a b : Int) (n : Nat) (msk : BitVec w) (s : Nat) : HasCode AnyWord (exchStepL S a b n msk s) := by
  unfold exchStepL; code
macro_rules | `(tactic| code1) => `(tactic| with_reducible exact hc_exchStepL _ _ _ _ _ _)
theorem hc_exchStepR (S : ShiftSem w) (a b : Int) (n : Nat) (msk : BitVec w) (s : Nat) : HasCode AnyWord (exchStepR S a b n msk s) := by
  unfold exchStepR; code
macro_rules | `(tactic| code1) => `(tactic| with_reducible exact hc_exchStepR _ _ _ _ _ _)
theorem hc_bitexch5 (S : ShiftSem w) (a b : Int) (s t n : Nat) : HasCode AnyWord (bitexch5 S a b s t n) := by unfold bitexch5; code
macro_rules | `(tactic| code1) => `(tactic| with_reducible exact hc_bitexch5 _ _ _ _ _ _)
theorem hc_swapLoop (S : ShiftSem w) (lb : Int) (p : Nat) (k : Nat) : ∀ a b : Int, HasCode AnyWord (swapLoop S lb p k a b) := by
  induction k with
  | zero => intros; exact HasCode.ub _
  | succ k ih => intro a b; unfold swapLoop; code; exact ih _ _
macro_rules | `(tactic| code1) => `(tactic| with_reducible exact hc_swapLoop _ _ _ _ _ _)
theorem hc_swapSingle (S : ShiftSem w) (f l d : BitIter w) : HasCode AnyWord (swapSingle S f l d) := by unfold swapSingle; code
macro_rules | `(tactic| code1) => `(tactic| with_reducible exact hc_swapSingle _ _ _ _)
theorem hc_swapAligned (S : ShiftSem w) (f l d : BitIter w) : HasCode AnyWord (swapAligned S f l d) := by unfold swapAligned; code
macro_rules | `(tactic| code1) => `(tactic| with_reducible exact hc_swapAligned _ _ _ _)
theorem hc_swapMisHead (S : ShiftSem w) (f d : BitIter w) : HasCode AnyWord (swapMisHead S f d) := by unfold swapMisHead; code
macro_rules | `(tactic| code1) => `(tactic| with_reducible exact hc_swapMisHead _ _ _)
theorem hc_swapMisaligned (S : ShiftSem w) (f l d : BitIter w) : HasCode AnyWord (swapMisaligned S f l d) := by unfold swapMisaligned; code
macro_rules | `(tactic| code1) => `(tactic| with_reducible exact hc_swapMisaligned _ _ _ _)
theorem hc_swapRanges (S : ShiftSem w) (f l d : BitIter w) : HasCode AnyWord (swapRanges S f l d) := by unfold swapRanges; code
macro_rules | `(tactic| code1) => `(tactic| with_reducible exact hc_swapRanges _ _ _ _)
theorem hc_rotFwdSwaps (S : ShiftSem w) (k : Int) (n : Nat) : ∀ p q : BitIter w, HasCode AnyWord (rotFwdSwaps S k n p q) := by
  induction n with
  | zero => intros; exact HasCode.pure _
  | succ n ih => intro p q; unfold rotFwdSwaps; code; exact ih _ _
macro_rules | `(tactic| code1) => `(tactic| with_reducible exact hc_rotFwdSwaps _ _ _ _ _)
theorem hc_rotBwdSwaps (S : ShiftSem w) (k : Int) (n : Nat) : ∀ p q : BitIter w, HasCode AnyWord (rotBwdSwaps S k n p q) := by
  induction n with
  | zero => intros; exact HasCode.pure _
  | succ n ih => intro p q; unfold rotBwdSwaps; code; exact ih _ _
macro_rules | `(tactic| code1) => `(tactic| with_reducible exact hc_rotBwdSwaps _ _ _ _ _)
theorem hc_rotLoop (S : ShiftSem w) (fuel : Nat) : ∀ (p : BitIter w) (k n : Int), HasCode AnyWord (rotLoop S fuel p k n) := by
  induction fuel with
  | zero => intros; exact HasCode.ub _
  | succ fuel ih => intro p k n; unfold rotLoop; code <;> exact ih _ _ _
macro_rules | `(tactic| code1) => `(tactic| with_reducible exact hc_rotLoop _ _ _ _ _)
theorem hc_rotateViaRaw (S : ShiftSem w) (f n l : BitIter w) : HasCode AnyWord (rotateViaRaw S f n l) := by unfold rotateViaRaw; code
macro_rules | `(tactic| code1) => `(tactic| with_reducible exact hc_rotateViaRaw _ _ _ _)
theorem hc_rotateSingle (S : ShiftSem w) (f n l : BitIter w) : HasCode AnyWord (rotateSingle S f n l) := by unfold rotateSingle; code
macro_rules | `(tactic| code1) => `(tactic| with_reducible exact hc_rotateSingle _ _ _ _)
theorem hc_rotate (S : ShiftSem w) (f n l : BitIter w) : HasCode AnyWord (rotate S f n l) := by unfold rotate; code

theorem hc_toBool (r : BitRef w) : HasCode P r.toBool := by unfold BitRef.toBool; code
macro_rules | `(tactic| code1) => `(tactic| with_reducible exact hc_toBool _)
theorem hc_set (r : BitRef w) : HasCode AnyWord r.set := by unfold BitRef.set; code
macro_rules | `(tactic| code1) => `(tactic| with_reducible exact hc_set _)
theorem hc_reset (r : BitRef w) : HasCode AnyWord r.reset := by unfold BitRef.reset; code
macro_rules | `(tactic| code1) => `(tactic| with_reducible exact hc_reset _)
theorem hc_flip (r : BitRef w) : HasCode AnyWord r.flip := by unfold BitRef.flip; code
macro_rules | `(tactic| code1) => `(tactic| with_reducible exact hc_flip _)
theorem hc_assignRef (r o : BitRef w) : HasCode AnyWord (r.assignRef o) := by unfold BitRef.assignRef; code
theorem hc_toVal (r : BitRef w) : HasCode P r.toVal := by unfold BitRef.toVal; code
macro_rules | `(tactic| code1) => `(tactic| with_reducible exact hc_toVal _)
theorem hc_swap (l r : BitRef w) : HasCode AnyWord (l.swap r) := by unfold BitRef.swap; code
theorem hc_refOp (op : RefOp w) (r : BitRef w) : HasCode AnyWord (op.run r) := by
  cases op <;> unfold RefOp.run <;>
    (try unfold BitRef.setTo) <;> (try unfold BitRef.assignVal) <;> (try unfold BitRef.assignWord) <;>
    (try unfold BitRef.andAssign) <;> (try unfold BitRef.orAssign) <;> (try unfold BitRef.xorAssign) <;> code

end BitLib
