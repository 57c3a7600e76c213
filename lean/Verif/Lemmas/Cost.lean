import Verif.SpecCost
import Verif.Lemmas.Iter
import Verif.Lemmas.Erase
import Mathlib.Tactic.Linarith
/- Bounds for the number of accesses. -/
namespace BitLib
variable {w : Nat} {α β : Type}

namespace Code

/-- At most `n` accesses whatever the memory contains, and every result satisfies `Q`. -/
def Bound (Q : α → Prop) : Code w α → Nat → Prop
  | ret a, _ => Q a
  | stop _, _ => True
  | load _ k, n => 1 ≤ n ∧ ∀ x, (k x).Bound Q (n - 1)
  | store _ _ k, n => 1 ≤ n ∧ k.Bound Q (n - 1)

theorem Bound.accesses {Q : α → Prop} {c : Code w α} : ∀ {n}, c.Bound Q n → ∀ m, c.accesses m ≤ n := by
  induction c with
  | ret a => intro n _ m; exact Nat.zero_le _
  | stop e => intro n _ m; exact Nat.zero_le _
  | load a k ih =>
    intro n h m
    unfold Code.accesses
    have h1 : 1 ≤ n := h.1
    split
    · rename_i x _
      have := ih x (h.2 x) m
      omega
    · exact h1
  | store a x k ih =>
    intro n h m
    unfold Code.accesses
    have h1 : 1 ≤ n := h.1
    split
    · have := ih h.2 (m.set a x)
      omega
    · exact h1

theorem Bound.mono {Q R : α → Prop} (hq : ∀ a, Q a → R a) {c : Code w α} : ∀ {n k}, c.Bound Q n → n ≤ k → c.Bound R k := by
  induction c with
  | ret a => intro n k h _; exact hq a h
  | stop e => intro n k h _; trivial
  | load a k ih => intro n j h hk; exact ⟨le_trans h.1 hk, fun x => ih x (h.2 x) (by omega)⟩
  | store a x k ih => intro n j h hk; exact ⟨le_trans h.1 hk, ih h.2 (by omega)⟩

theorem Bound.bind {Q : α → Prop} {R : β → Prop} {c : Code w α} {f : α → Code w β} : ∀ {n k}, c.Bound Q n → n ≤ k →
    (∀ a, Q a → (f a).Bound R (k - n)) → (c >>= f).Bound R k := by
  induction c with
  | ret a => intro n k h hk hf; exact (hf a h).mono (fun _ h => h) (by omega)
  | stop e => intro n k h _ _; trivial
  | load a k ih =>
    intro n j h hk hf
    refine ⟨le_trans h.1 hk, fun x => ih x (h.2 x) (by omega) fun a ha => ?_⟩
    have h1 : 1 ≤ n := h.1
    exact (hf a ha).mono (fun _ h => h) (by omega)
  | store a x k ih =>
    intro n j h hk hf
    have h1 : 1 ≤ n := h.1
    exact ⟨le_trans h.1 hk, ih h.2 (by omega) fun a ha => (hf a ha).mono (fun _ h => h) (by omega)⟩

end Code

open Code (Bound)
namespace Gen
variable {Q : α → Prop} {R : β → Prop} {n k : Nat}

theorem b_pure {a : α} (h : Q a) : Bound Q (pure a : Code w α) n := h
theorem b_ub (e : UB) : Bound Q (ub e : Code w α) n := trivial
theorem b_lift {e : Except UB α} (h : ∀ a, Q a) : Bound Q (lift e : Code w α) n := by
  cases e with
  | ok a => exact h a
  | error e => trivial
theorem b_store {Q : Unit → Prop} {a : Int} {x : BitVec w} (hn : 1 ≤ n) (h : Q ()) : Bound Q (store a x : Code w Unit) n := ⟨hn, h⟩
theorem b_load {Q : BitVec w → Prop} {a : Int} (hn : 1 ≤ n) (h : ∀ x, Q x) : Bound Q (load a : Code w _) n := ⟨hn, h⟩
theorem b_bind_pure {a : α} {f : α → Code w β} (h : Bound R (f a) n) : Bound R (pure a >>= f) n := h
theorem b_bind_lift {e : Except UB α} {f : α → Code w β} (h : ∀ a, Bound R (f a) n) : Bound R (lift e >>= f) n := by
  cases e with
  | ok a => exact h a
  | error e => trivial
theorem b_bind_load {a : Int} {f : BitVec w → Code w β} (hn : 1 ≤ n) (h : ∀ x, Bound R (f x) (n - 1)) : Bound R (load a >>= f) n := ⟨hn, h⟩
theorem b_bind_store {a : Int} {x : BitVec w} {f : Unit → Code w β} (hn : 1 ≤ n) (h : Bound R (f ()) (n - 1)) :
    Bound R (store a x >>= f) n := ⟨hn, h⟩
theorem b_bind_assert {p : Prop} [Decidable p] {f : Unit → Code w β} (h : p → Bound R (f ()) n) : Bound R (assertM p >>= f) n := by
  rw [assertM_code]
  split
  · exact h ‹_›
  · trivial
theorem b_assert {Q : Unit → Prop} {p : Prop} [Decidable p] (h : p → Q ()) : Bound Q (assertM p : Code w Unit) n := by
  rw [assertM_code]
  split
  · exact h ‹_›
  · trivial
theorem b_ite {p : Prop} [Decidable p] {c d : Code w α} (h1 : p → Bound Q c n) (h2 : ¬p → Bound Q d n) : Bound Q (if p then c else d) n := by
  split
  · exact h1 ‹_›
  · exact h2 ‹_›

/-- A call at the end. -/
theorem b_call {P : α → Prop} {c : Code w α} (h : Bound P c k) (hk : k ≤ n) (hq : ∀ a, P a → Q a) : Bound Q c n := h.mono hq hk

/-- A function that makes at most `n` accesses. -/
abbrev AtMost (c : Code w α) (n : Nat) : Prop := Bound (fun _ => True) c n

theorem b_last {c : Code w α} (h : AtMost c k) (hk : k ≤ n) (hq : ∀ a, Q a) : Bound Q c n := h.mono (fun a _ => hq a) hk
theorem b_then {c : Code w α} {f : α → Code w β} (h : AtMost c k) (hk : k ≤ n) (hf : ∀ a, Bound R (f a) (n - k)) :
    Bound R (c >>= f) n := h.bind hk fun a _ => hf a

/-- Bounds a text without loops; extended with a lemma for each function below. -/
syntax "cost1" : tactic
macro_rules | `(tactic| cost1) => `(tactic| (intro _; try dsimp only))
macro_rules | `(tactic| cost1) => `(tactic| trivial)
macro_rules | `(tactic| cost1) => `(tactic| with_reducible refine b_pure ?_)
macro_rules | `(tactic| cost1) => `(tactic| with_reducible exact b_ub _)
macro_rules | `(tactic| cost1) => `(tactic| with_reducible refine b_lift ?_)
macro_rules | `(tactic| cost1) => `(tactic| with_reducible refine b_store (by omega) ?_)
macro_rules | `(tactic| cost1) => `(tactic| with_reducible refine b_load (by omega) ?_)
macro_rules | `(tactic| cost1) => `(tactic| with_reducible refine b_assert ?_)
macro_rules | `(tactic| cost1) => `(tactic| with_reducible refine b_bind_pure ?_)
macro_rules | `(tactic| cost1) => `(tactic| with_reducible refine b_bind_lift ?_)
macro_rules | `(tactic| cost1) => `(tactic| with_reducible refine b_bind_load (by omega) ?_)
macro_rules | `(tactic| cost1) => `(tactic| with_reducible refine b_bind_store (by omega) ?_)
macro_rules | `(tactic| cost1) => `(tactic| with_reducible refine b_bind_assert ?_)
macro_rules | `(tactic| cost1) => `(tactic| with_reducible refine b_ite ?_ ?_)

/-! ### Functions without loops -/

theorem b_mk {a : Int} {p : Nat} : AtMost (@BitIter.mk? w (Code w) _ _ a p) 0 := by
  unfold BitIter.mk?
  repeat cost1
macro_rules | `(tactic| cost1) => `(tactic| with_reducible refine b_last b_mk (by omega) ?_)
macro_rules | `(tactic| cost1) => `(tactic| with_reducible refine b_then b_mk (by omega) ?_)

theorem b_viable {f l : BitIter w} : AtMost (@assertViable w (Code w) _ f l) 0 := by
  unfold assertViable
  repeat cost1
macro_rules | `(tactic| cost1) => `(tactic| with_reducible refine b_last b_viable (by omega) ?_)
macro_rules | `(tactic| cost1) => `(tactic| with_reducible refine b_then b_viable (by omega) ?_)

theorem b_bitexch3 {a b : Int} {k : BitVec w} : AtMost (@bitexch3 w (Code w) _ _ a b k) 9 := by
  unfold bitexch3
  repeat cost1
macro_rules | `(tactic| cost1) => `(tactic| with_reducible refine b_last b_bitexch3 (by omega) ?_)
macro_rules | `(tactic| cost1) => `(tactic| with_reducible refine b_then b_bitexch3 (by omega) ?_)

theorem b_bitexch4 {S : ShiftSem w} {a b : Int} {s l : Nat} : AtMost (@bitexch4 w (Code w) _ _ S a b s l) 9 := by
  unfold bitexch4
  repeat cost1
macro_rules | `(tactic| cost1) => `(tactic| with_reducible refine b_last b_bitexch4 (by omega) ?_)
macro_rules | `(tactic| cost1) => `(tactic| with_reducible refine b_then b_bitexch4 (by omega) ?_)

theorem b_exchStepL {S : ShiftSem w} {d s : Int} {n : Nat} {k : BitVec w} {t : Nat} : AtMost (@exchStepL w (Code w) _ _ S d s n k t) 3 := by
  unfold exchStepL
  repeat cost1
macro_rules | `(tactic| cost1) => `(tactic| with_reducible refine b_last b_exchStepL (by omega) ?_)
macro_rules | `(tactic| cost1) => `(tactic| with_reducible refine b_then b_exchStepL (by omega) ?_)

theorem b_exchStepR {S : ShiftSem w} {d s : Int} {n : Nat} {k : BitVec w} {t : Nat} : AtMost (@exchStepR w (Code w) _ _ S d s n k t) 3 := by
  unfold exchStepR
  repeat cost1
macro_rules | `(tactic| cost1) => `(tactic| with_reducible refine b_last b_exchStepR (by omega) ?_)
macro_rules | `(tactic| cost1) => `(tactic| with_reducible refine b_then b_exchStepR (by omega) ?_)

theorem b_bitexch5 {S : ShiftSem w} {a b : Int} {s t l : Nat} : AtMost (@bitexch5 w (Code w) _ _ S a b s t l) 9 := by
  unfold bitexch5
  repeat cost1
macro_rules | `(tactic| cost1) => `(tactic| with_reducible refine b_last b_bitexch5 (by omega) ?_)
macro_rules | `(tactic| cost1) => `(tactic| with_reducible refine b_then b_bitexch5 (by omega) ?_)

theorem b_blendAt {S : ShiftSem w} {a : Int} {x : BitVec w} {s l : Nat} : AtMost (@blendAt w (Code w) _ _ S a x s l) 2 := by
  unfold blendAt
  repeat cost1
macro_rules | `(tactic| cost1) => `(tactic| with_reducible refine b_last b_blendAt (by omega) ?_)
macro_rules | `(tactic| cost1) => `(tactic| with_reducible refine b_then b_blendAt (by omega) ?_)

theorem b_blendLowAt {S : ShiftSem w} {a : Int} {x : BitVec w} {n : Nat} : AtMost (@blendLowAt w (Code w) _ _ S a x n) 2 := by
  unfold blendLowAt
  repeat cost1
macro_rules | `(tactic| cost1) => `(tactic| with_reducible refine b_last b_blendLowAt (by omega) ?_)
macro_rules | `(tactic| cost1) => `(tactic| with_reducible refine b_then b_blendLowAt (by omega) ?_)

theorem b_getWord {S : ShiftSem w} {f : BitIter w} {l : Nat} : AtMost (@getWord w (Code w) _ _ S f l) 2 := by
  unfold getWord
  repeat cost1
macro_rules | `(tactic| cost1) => `(tactic| with_reducible refine b_last b_getWord (by omega) ?_)
macro_rules | `(tactic| cost1) => `(tactic| with_reducible refine b_then b_getWord (by omega) ?_)

theorem b_writeWord {S : ShiftSem w} {x : BitVec w} {d : BitIter w} {l : Nat} : AtMost (@writeWord w (Code w) _ _ S x d l) 4 := by
  unfold writeWord
  repeat cost1
macro_rules | `(tactic| cost1) => `(tactic| with_reducible refine b_last b_writeWord (by omega) ?_)
macro_rules | `(tactic| cost1) => `(tactic| with_reducible refine b_then b_writeWord (by omega) ?_)

theorem b_copyTail {S : ShiftSem w} {r : Nat} {f : BitIter w} {a : Int} : AtMost (@copyTail w (Code w) _ _ S r f a) 4 := by
  unfold copyTail
  repeat cost1
macro_rules | `(tactic| cost1) => `(tactic| with_reducible refine b_last b_copyTail (by omega) ?_)
macro_rules | `(tactic| cost1) => `(tactic| with_reducible refine b_then b_copyTail (by omega) ?_)

theorem b_moveTail {S : ShiftSem w} {r : Nat} {f : BitIter w} {a : Int} : AtMost (@moveTail w (Code w) _ _ S r f a) 4 := by
  unfold moveTail
  repeat cost1
macro_rules | `(tactic| cost1) => `(tactic| with_reducible refine b_last b_moveTail (by omega) ?_)
macro_rules | `(tactic| cost1) => `(tactic| with_reducible refine b_then b_moveTail (by omega) ?_)

theorem b_copyBackwardTail {S : ShiftSem w} {r : Nat} {f : BitIter w} {a : Int} : AtMost (@copyBackwardTail w (Code w) _ _ S r f a) 4 := by
  unfold copyBackwardTail
  repeat cost1
macro_rules | `(tactic| cost1) => `(tactic| with_reducible refine b_last b_copyBackwardTail (by omega) ?_)
macro_rules | `(tactic| cost1) => `(tactic| with_reducible refine b_then b_copyBackwardTail (by omega) ?_)

theorem b_transformTail {S : ShiftSem w} {op : BitVec w → BitVec w} {r : Nat} {f : BitIter w} {a : Int} : AtMost (@transformTail w (Code w) _ _ S op r f a) 4 := by
  unfold transformTail
  repeat cost1
macro_rules | `(tactic| cost1) => `(tactic| with_reducible refine b_last b_transformTail (by omega) ?_)
macro_rules | `(tactic| cost1) => `(tactic| with_reducible refine b_then b_transformTail (by omega) ?_)

theorem b_transform2Tail {S : ShiftSem w} {op : BitVec w → BitVec w → BitVec w} {r : Nat} {f g : BitIter w} {a : Int} : AtMost (@transform2Tail w (Code w) _ _ S op r f g a) 6 := by
  unfold transform2Tail
  repeat cost1
macro_rules | `(tactic| cost1) => `(tactic| with_reducible refine b_last b_transform2Tail (by omega) ?_)
macro_rules | `(tactic| cost1) => `(tactic| with_reducible refine b_then b_transform2Tail (by omega) ?_)

theorem b_equalTail {S : ShiftSem w} {r : Nat} {f : BitIter w} {a : Int} : AtMost (@equalTail w (Code w) _ _ S r f a) 3 := by
  unfold equalTail
  repeat cost1
macro_rules | `(tactic| cost1) => `(tactic| with_reducible refine b_last b_equalTail (by omega) ?_)
macro_rules | `(tactic| cost1) => `(tactic| with_reducible refine b_then b_equalTail (by omega) ?_)

theorem b_shiftLeftAlign {S : ShiftSem w} {f g : BitIter w} {d n : Int} : AtMost (@shiftLeftAlign w (Code w) _ _ S f g d n) 6 := by
  unfold shiftLeftAlign
  repeat cost1
macro_rules | `(tactic| cost1) => `(tactic| with_reducible refine b_last b_shiftLeftAlign (by omega) ?_)
macro_rules | `(tactic| cost1) => `(tactic| with_reducible refine b_then b_shiftLeftAlign (by omega) ?_)

theorem b_reverseFirst {S : ShiftSem w} {a : Int} {p : Nat} {x : BitVec w} : AtMost (@reverseFirst w (Code w) _ _ S a p x) 2 := by
  unfold reverseFirst
  repeat cost1
macro_rules | `(tactic| cost1) => `(tactic| with_reducible refine b_last b_reverseFirst (by omega) ?_)
macro_rules | `(tactic| cost1) => `(tactic| with_reducible refine b_then b_reverseFirst (by omega) ?_)

theorem b_reverseLast {S : ShiftSem w} {a : Int} {p : Nat} {x : BitVec w} : AtMost (@reverseLast w (Code w) _ _ S a p x) 2 := by
  unfold reverseLast
  repeat cost1
macro_rules | `(tactic| cost1) => `(tactic| with_reducible refine b_last b_reverseLast (by omega) ?_)
macro_rules | `(tactic| cost1) => `(tactic| with_reducible refine b_then b_reverseLast (by omega) ?_)

/-! ### Ranges -/

theorem b_bind_viable {f l : BitIter w} {g : Unit → Code w β} (h : 0 ≤ l.diff f → Bound R (g ()) n) : Bound R (assertViable f l >>= g) n :=
  b_bind_assert h

theorem b_bind_distance {f l : BitIter w} {g : Int → Code w β} (h : 0 ≤ l.diff f → Bound R (g (l.diff f)) n) :
    Bound R (distance f l >>= g) n := by
  unfold distance assertViable
  rw [assertM_code]
  split
  · exact h ‹_›
  · trivial

theorem b_bind_wordDist {f l : Int} {g : Nat → Code w β} (h : f ≤ l → Bound R (g (l - f).toNat) n) : Bound R (wordDist f l >>= g) n := by
  unfold wordDist
  split
  · exact h ‹_›
  · trivial

macro_rules | `(tactic| cost1) => `(tactic| with_reducible refine b_bind_viable ?_)
macro_rules | `(tactic| cost1) => `(tactic| with_reducible refine b_bind_distance ?_)
macro_rules | `(tactic| cost1) => `(tactic| with_reducible refine b_bind_wordDist ?_)

theorem div_step {r : Nat} (hw : 0 < w) (h : w ≤ r) : (r - w) / w + 1 = r / w := by
  rw [← Nat.sub_add_cancel h, Nat.add_div_right _ hw]
  simp

/-- Words between aligned ends. -/
theorem words_aligned {f l : BitIter w} (hf : f.pos = 0) (hl : l.Valid) {r : Nat} (h : l.addr = f.addr + r) : (l.base - f.base).toNat = r / w := by
  have hw : 0 < w := lt_of_le_of_lt (Nat.zero_le _) hl
  unfold BitIter.addr at h
  rw [hf] at h
  have e : (r : Int) = (l.base - f.base) * w + l.pos := by push_cast at h; linarith
  have e1 : ((r / w : Nat) : Int) = l.base - f.base := by
    rw [Int.natCast_ediv, e, add_comm, Int.add_mul_ediv_right _ _ (by omega), Int.ediv_eq_zero_of_lt (by omega) (by exact_mod_cast hl), zero_add]
  rw [← e1, Int.toNat_natCast]

theorem words_le {f l : BitIter w} (hf : f.Valid) (hl : l.Valid) {r : Nat} (h : l.addr = f.addr + r) : (l.base - f.base).toNat ≤ r / w + 1 := by
  have hw : 0 < w := lt_of_le_of_lt (Nat.zero_le _) hl
  have := words_aligned (f := ⟨f.base, 0⟩) (l := l) rfl hl (r := r + f.pos) (by
    unfold BitIter.addr at h ⊢
    push_cast at h ⊢
    linarith)
  show (l.base - f.base).toNat ≤ r / w + 1
  rw [show (l.base - f.base).toNat = (r + f.pos) / w from this, ← Nat.add_div_right _ hw]
  exact Nat.div_le_div_right (by unfold BitIter.Valid at hf; omega)

/-! ### Loops over words -/

theorem b_stdCopyN : ∀ (n : Nat) (a b : Int), AtMost (@stdCopyN w (Code w) _ _ n a b) (2 * n)
  | 0, _, _ => by
    unfold stdCopyN
    repeat cost1
  | n + 1, a, b => by
    unfold stdCopyN
    repeat first | cost1 | with_reducible refine b_last (b_stdCopyN n _ _) (by omega) ?_

theorem b_stdCopyBackwardN : ∀ (n : Nat) (a b : Int), AtMost (@stdCopyBackwardN w (Code w) _ _ n a b) (2 * n)
  | 0, _, _ => by
    unfold stdCopyBackwardN
    repeat cost1
  | n + 1, a, b => by
    unfold stdCopyBackwardN
    repeat first | cost1 | with_reducible refine b_last (b_stdCopyBackwardN n _ _) (by omega) ?_

theorem b_stdFillN {x : BitVec w} : ∀ (n : Nat) (a : Int), AtMost (@stdFillN w (Code w) _ _ x n a) (1 * n)
  | 0, _ => by
    unfold stdFillN
    repeat cost1
  | n + 1, a => by
    unfold stdFillN
    repeat first | cost1 | with_reducible refine b_last (b_stdFillN n _) (by omega) ?_

theorem b_stdFindIfN {p : BitVec w → Bool} : ∀ (n : Nat) (a : Int), AtMost (@stdFindIfN w (Code w) _ _ p n a) (1 * n)
  | 0, _ => by
    unfold stdFindIfN
    repeat cost1
  | n + 1, a => by
    unfold stdFindIfN
    repeat first | cost1 | with_reducible refine b_last (b_stdFindIfN n _) (by omega) ?_

theorem b_stdEqualN : ∀ (n : Nat) (a b : Int), AtMost (@stdEqualN w (Code w) _ _ n a b) (2 * n)
  | 0, _, _ => by
    unfold stdEqualN
    repeat cost1
  | n + 1, a, b => by
    unfold stdEqualN
    repeat first | cost1 | with_reducible refine b_last (b_stdEqualN n _ _) (by omega) ?_

theorem b_stdTransformN {f : BitVec w → BitVec w} : ∀ (n : Nat) (a b : Int), AtMost (@stdTransformN w (Code w) _ _ f n a b) (2 * n)
  | 0, _, _ => by
    unfold stdTransformN
    repeat cost1
  | n + 1, a, b => by
    unfold stdTransformN
    repeat first | cost1 | with_reducible refine b_last (b_stdTransformN n _ _) (by omega) ?_

theorem b_stdTransform2N {f : BitVec w → BitVec w → BitVec w} : ∀ (n : Nat) (a b c : Int), AtMost (@stdTransform2N w (Code w) _ _ f n a b c) (3 * n)
  | 0, _, _, _ => by
    unfold stdTransform2N
    repeat cost1
  | n + 1, a, b, c => by
    unfold stdTransform2N
    repeat first | cost1 | with_reducible refine b_last (b_stdTransform2N n _ _ _) (by omega) ?_

theorem b_stdSwapRangesN : ∀ (n : Nat) (a b : Int), AtMost (@stdSwapRangesN w (Code w) _ _ n a b) (4 * n)
  | 0, _, _ => by
    unfold stdSwapRangesN
    repeat cost1
  | n + 1, a, b => by
    unfold stdSwapRangesN
    repeat first | cost1 | with_reducible refine b_last (b_stdSwapRangesN n _ _) (by omega) ?_

theorem b_popcntWords : ∀ (n : Nat) (a : Int), AtMost (@popcntWords w (Code w) _ _ n a) (1 * n)
  | 0, _ => by
    unfold popcntWords
    repeat cost1
  | n + 1, a => by
    unfold popcntWords
    repeat first | cost1 | with_reducible refine b_then (b_popcntWords n _) (by omega) ?_

theorem b_stdReverseN : ∀ (n : Nat) (a b : Int), AtMost (@stdReverseN w (Code w) _ _ n a b) (2 * n)
  | 0, _, _ => by
    unfold stdReverseN
    repeat cost1
  | 1, _, _ => by
    unfold stdReverseN
    repeat cost1
  | n + 2, a, b => by
    unfold stdReverseN
    repeat first | cost1 | with_reducible refine b_last (b_stdReverseN n _ _) (by omega) ?_

theorem b_stdCopy {f l d : Int} : AtMost (@stdCopy w (Code w) _ _ f l d) (2 * (l - f).toNat) := by
  unfold stdCopy
  exact b_bind_wordDist fun _ => b_stdCopyN _ _ _

theorem b_stdCopyBackward {f l d : Int} : AtMost (@stdCopyBackward w (Code w) _ _ f l d) (2 * (l - f).toNat) := by
  unfold stdCopyBackward
  exact b_bind_wordDist fun _ => b_stdCopyBackwardN _ _ _

theorem b_stdFill {f l : Int} {x : BitVec w} : AtMost (@stdFill w (Code w) _ _ f l x) (1 * (l - f).toNat) := by
  unfold stdFill
  exact b_bind_wordDist fun _ => b_stdFillN _ _

theorem b_stdFindIf {f l : Int} {p : BitVec w → Bool} : AtMost (@stdFindIf w (Code w) _ _ f l p) (1 * (l - f).toNat) := by
  unfold stdFindIf
  exact b_bind_wordDist fun _ => b_stdFindIfN _ _

theorem b_stdEqual {f l d : Int} : AtMost (@stdEqual w (Code w) _ _ f l d) (2 * (l - f).toNat) := by
  unfold stdEqual
  exact b_bind_wordDist fun _ => b_stdEqualN _ _ _

theorem b_stdReverse {f l : Int} : AtMost (@stdReverse w (Code w) _ _ f l) (2 * (l - f).toNat) := by
  unfold stdReverse
  exact b_bind_wordDist fun _ => b_stdReverseN _ _ _

theorem b_stdTransform {f l d : Int} {g : BitVec w → BitVec w} : AtMost (@stdTransform w (Code w) _ _ f l d g) (2 * (l - f).toNat) := by
  unfold stdTransform
  exact b_bind_wordDist fun _ => b_stdTransformN _ _ _

theorem b_stdTransform2 {f l t d : Int} {g : BitVec w → BitVec w → BitVec w} : AtMost (@stdTransform2 w (Code w) _ _ f l t d g) (3 * (l - f).toNat) := by
  unfold stdTransform2
  exact b_bind_wordDist fun _ => b_stdTransform2N _ _ _ _

theorem b_stdSwapRanges {f l d : Int} : AtMost (@stdSwapRanges w (Code w) _ _ f l d) (4 * (l - f).toNat) := by
  unfold stdSwapRanges
  exact b_bind_wordDist fun _ => b_stdSwapRangesN _ _ _

end Gen
end BitLib
