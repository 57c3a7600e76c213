import Verif.Lemmas.Erase
import Verif.Lemmas.Iter
import Verif.Lemmas.Map
import Mathlib.Tactic.Ring
import Mathlib.Tactic.Linarith
/- Which words the algorithms that copy from one range to another store to. -/
namespace BitLib
variable {w : Nat} {α β : Type}

namespace Code

/-- The code stores to words of `T` only, and every result satisfies `Q`. -/
def Puts (T : Int → Prop) (Q : α → Prop) : Code w α → Prop
  | ret a => Q a
  | stop _ => True
  | load _ k => ∀ x, (k x).Puts T Q
  | store a _ k => T a ∧ k.Puts T Q

theorem Puts.stores {T : Int → Prop} {Q : α → Prop} {c : Code w α} (h : c.Puts T Q) {a : Int} (hs : c.Stores a) : T a := by
  induction hs with
  | here b x k => exact h.1
  | store a x k _ ih => exact ih h.2
  | load a k x _ ih => exact ih (h x)

theorem Puts.bind {T : Int → Prop} {Q : α → Prop} {R : β → Prop} {c : Code w α} {f : α → Code w β} (h : c.Puts T Q)
    (hf : ∀ a, Q a → (f a).Puts T R) : (c >>= f).Puts T R := by
  induction c with
  | ret a => exact hf a h
  | stop e => trivial
  | load a k ih => exact fun x => ih x (h x)
  | store a x k ih => exact ⟨h.1, ih h.2⟩

theorem Puts.mono {T : Int → Prop} {Q R : α → Prop} {c : Code w α} (h : c.Puts T Q) (hq : ∀ a, Q a → R a) : c.Puts T R := by
  induction c with
  | ret a => exact hq a h
  | stop e => trivial
  | load a k ih => exact fun x => ih x (h x)
  | store a x k ih => exact ⟨h.1, ih h.2⟩

end Code

open Code (Puts)

/-- The word `a` holds a bit of `[lo, hi)`. -/
def Tw (w : Nat) (lo hi a : Int) : Prop := lo < (a + 1) * w ∧ a * w < hi

namespace Gen
variable {T : Int → Prop} {Q : α → Prop} {R : β → Prop}

theorem p_pure {a : α} (h : Q a) : Puts T Q (pure a : Code w α) := h
theorem p_ub (e : UB) : Puts T Q (ub e : Code w α) := trivial
theorem p_lift {e : Except UB α} (h : ∀ a, Q a) : Puts T Q (lift e : Code w α) := by
  cases e with
  | ok a => exact h a
  | error e => trivial
theorem p_store {Q : Unit → Prop} {a : Int} {x : BitVec w} (ht : T a) (h : Q ()) : Puts T Q (store a x : Code w Unit) := ⟨ht, h⟩
theorem p_bind_load {a : Int} {f : BitVec w → Code w β} (h : ∀ x, Puts T R (f x)) : Puts T R (load a >>= f) := h
theorem p_bind_store {a : Int} {x : BitVec w} {f : Unit → Code w β} (ht : T a) (h : Puts T R (f ())) : Puts T R (store a x >>= f) := ⟨ht, h⟩
theorem p_bind_lift {e : Except UB α} {f : α → Code w β} (h : ∀ a, Puts T R (f a)) : Puts T R (lift e >>= f) := by
  cases e with
  | ok a => exact h a
  | error e => trivial
theorem p_ite {p : Prop} [Decidable p] {c d : Code w α} (h1 : p → Puts T Q c) (h2 : ¬p → Puts T Q d) : Puts T Q (if p then c else d) := by
  split
  · exact h1 ‹_›
  · exact h2 ‹_›
theorem p_bind_assert {p : Prop} [Decidable p] {f : Unit → Code w β} (h : p → Puts T R (f ())) : Puts T R (assertM p >>= f) := by
  rw [assertM_code]
  split
  · exact h ‹_›
  · trivial
theorem p_bind_distance {f l : BitIter w} {g : Int → Code w β} (h : 0 ≤ l.diff f → Puts T R (g (l.diff f))) : Puts T R (distance f l >>= g) := by
  unfold distance assertViable
  rw [assertM_code]
  split
  · exact h ‹_›
  · trivial
theorem p_bind_wordDist {f l : Int} {g : Nat → Code w β} (h : f ≤ l → Puts T R (g (l - f).toNat)) : Puts T R (wordDist f l >>= g) := by
  unfold wordDist
  split
  · exact h ‹_›
  · trivial

theorem p_getWord {S : ShiftSem w} {f : BitIter w} {n : Nat} : Puts T (fun _ => True) (@getWord w (Code w) _ _ S f n) := by
  unfold getWord
  exact p_bind_assert fun _ => p_bind_load fun _ => p_bind_lift fun _ => p_ite (fun _ => p_pure trivial) fun _ =>
    p_bind_load fun _ => p_bind_lift fun _ => p_lift fun _ => trivial
theorem p_bind_getWord {S : ShiftSem w} {f : BitIter w} {n : Nat} {g : BitVec w → Code w β} (h : ∀ x, Puts T R (g x)) :
    Puts T R (getWord S f n >>= g) := p_getWord.bind fun x _ => h x

theorem p_blendAt {S : ShiftSem w} {a : Int} {x : BitVec w} {s n : Nat} {Q : Unit → Prop} (ht : T a) (h : Q ()) :
    Puts T Q (@blendAt w (Code w) _ _ S a x s n) := by
  unfold blendAt
  exact p_bind_load fun _ => p_bind_lift fun _ => p_store ht h
theorem p_blendLowAt {S : ShiftSem w} {a : Int} {x : BitVec w} {n : Nat} {Q : Unit → Prop} (ht : T a) (h : Q ()) :
    Puts T Q (@blendLowAt w (Code w) _ _ S a x n) := by
  unfold blendLowAt
  exact p_bind_load fun _ => p_bind_lift fun _ => p_store ht h

variable {lo hi : Int}

theorem tw_up {a : Int} (hw : 0 < w) (h1 : lo ≤ a * w) (h2 : a * w < hi) : Tw w lo hi a :=
  ⟨by rw [Int.add_mul]; omega, h2⟩
theorem tw_down {a : Int} (hw : 0 < w) (h1 : lo < a * w) (h2 : a * w ≤ hi) : Tw w lo hi (a - 1) :=
  ⟨by rw [Int.sub_add_cancel]; exact h1, by rw [Int.sub_mul]; omega⟩

/-! ### Loops over words -/

theorem p_stdCopyN (hw : 0 < w) : ∀ (n : Nat) (s d : Int), lo ≤ d * w → d * w + n * w ≤ hi →
    Puts (Tw w lo hi) (fun r => r = d + n) (@stdCopyN w (Code w) _ _ n s d) := by
  intro n
  induction n with
  | zero => intro s d _ _; unfold stdCopyN; exact p_pure (by simp)
  | succ n ih =>
    intro s d h1 h2
    have e : ((n + 1 : Nat) : Int) * w = n * w + w := by push_cast; ring
    have h3 : (0 : Int) ≤ n * w := by positivity
    have e2 : (d + 1) * (w : Int) = d * w + w := by ring
    rw [e] at h2
    unfold stdCopyN
    refine p_bind_load fun x => p_bind_store (tw_up hw h1 (by omega)) ((ih (s + 1) (d + 1) (by omega) (by omega)).mono ?_)
    intro r hr
    rw [hr]; push_cast; ring

theorem p_stdTransformN {f : BitVec w → BitVec w} (hw : 0 < w) : ∀ (n : Nat) (s d : Int), lo ≤ d * w → d * w + n * w ≤ hi →
    Puts (Tw w lo hi) (fun r => r = d + n) (@stdTransformN w (Code w) _ _ f n s d) := by
  intro n
  induction n with
  | zero => intro s d _ _; unfold stdTransformN; exact p_pure (by simp)
  | succ n ih =>
    intro s d h1 h2
    have e : ((n + 1 : Nat) : Int) * w = n * w + w := by push_cast; ring
    have h3 : (0 : Int) ≤ n * w := by positivity
    have e2 : (d + 1) * (w : Int) = d * w + w := by ring
    rw [e] at h2
    unfold stdTransformN
    refine p_bind_load fun x => p_bind_store (tw_up hw h1 (by omega)) ((ih (s + 1) (d + 1) (by omega) (by omega)).mono ?_)
    intro r hr
    rw [hr]; push_cast; ring

theorem p_stdTransform2N {f : BitVec w → BitVec w → BitVec w} (hw : 0 < w) : ∀ (n : Nat) (s t d : Int), lo ≤ d * w → d * w + n * w ≤ hi →
    Puts (Tw w lo hi) (fun r => r = d + n) (@stdTransform2N w (Code w) _ _ f n s t d) := by
  intro n
  induction n with
  | zero => intro s t d _ _; unfold stdTransform2N; exact p_pure (by simp)
  | succ n ih =>
    intro s t d h1 h2
    have e : ((n + 1 : Nat) : Int) * w = n * w + w := by push_cast; ring
    have h3 : (0 : Int) ≤ n * w := by positivity
    have e2 : (d + 1) * (w : Int) = d * w + w := by ring
    rw [e] at h2
    unfold stdTransform2N
    refine p_bind_load fun x => p_bind_load fun y => p_bind_store (tw_up hw h1 (by omega)) ((ih (s + 1) (t + 1) (d + 1) (by omega) (by omega)).mono ?_)
    intro r hr
    rw [hr]; push_cast; ring

theorem p_stdCopyBackwardN (hw : 0 < w) : ∀ (n : Nat) (l d : Int), lo ≤ d * w - n * w → d * w ≤ hi →
    Puts (Tw w lo hi) (fun r => r = d - n) (@stdCopyBackwardN w (Code w) _ _ n l d) := by
  intro n
  induction n with
  | zero => intro s d _ _; unfold stdCopyBackwardN; exact p_pure (by simp)
  | succ n ih =>
    intro s d h1 h2
    have e : ((n + 1 : Nat) : Int) * w = n * w + w := by push_cast; ring
    have h3 : (0 : Int) ≤ n * w := by positivity
    have e2 : (d - 1) * (w : Int) = d * w - w := by ring
    rw [e] at h1
    unfold stdCopyBackwardN
    refine p_bind_load fun x => p_bind_store (tw_down hw (by omega) h2) ((ih (s - 1) (d - 1) (by omega) (by omega)).mono ?_)
    intro r hr
    rw [hr]; push_cast; ring

theorem p_stdCopy {f l d : Int} (hw : 0 < w) (h1 : lo ≤ d * w) (h2 : d * w + ((l - f).toNat : Int) * w ≤ hi) :
    Puts (Tw w lo hi) (fun r => r = d + ((l - f).toNat : Int)) (@stdCopy w (Code w) _ _ f l d) := by
  unfold stdCopy
  exact p_bind_wordDist fun _ => p_stdCopyN hw _ _ _ h1 h2

theorem p_stdTransform {f l d : Int} {g : BitVec w → BitVec w} (hw : 0 < w) (h1 : lo ≤ d * w) (h2 : d * w + ((l - f).toNat : Int) * w ≤ hi) :
    Puts (Tw w lo hi) (fun r => r = d + ((l - f).toNat : Int)) (@stdTransform w (Code w) _ _ f l d g) := by
  unfold stdTransform
  exact p_bind_wordDist fun _ => p_stdTransformN hw _ _ _ h1 h2

theorem p_stdTransform2 {f l e d : Int} {g : BitVec w → BitVec w → BitVec w} (hw : 0 < w) (h1 : lo ≤ d * w)
    (h2 : d * w + ((l - f).toNat : Int) * w ≤ hi) :
    Puts (Tw w lo hi) (fun r => r = d + ((l - f).toNat : Int)) (@stdTransform2 w (Code w) _ _ f l e d g) := by
  unfold stdTransform2
  exact p_bind_wordDist fun _ => p_stdTransform2N hw _ _ _ _ h1 h2

theorem p_stdCopyBackward {f l d : Int} (hw : 0 < w) (h1 : lo ≤ d * w - ((l - f).toNat : Int) * w) (h2 : d * w ≤ hi) :
    Puts (Tw w lo hi) (fun r => r = d - ((l - f).toNat : Int)) (@stdCopyBackward w (Code w) _ _ f l d) := by
  unfold stdCopyBackward
  exact p_bind_wordDist fun _ => p_stdCopyBackwardN hw _ _ _ h1 h2

/-! ### copy -/

theorem p_copyTail {S : ShiftSem w} {n : Nat} {f : BitIter w} {a : Int} (hw : 0 < w) (h1 : lo ≤ a * w) (h2 : a * w + n ≤ hi) :
    Puts (Tw w lo hi) (fun _ => True) (@copyTail w (Code w) _ _ S n f a) := by
  unfold copyTail
  exact p_ite (fun h => p_bind_getWord fun _ => p_blendLowAt (tw_up hw h1 (by omega)) trivial) fun _ => p_pure trivial

theorem p_copyLoop {S : ShiftSem w} (hw : 0 < w) : ∀ (k n : Nat) (f : BitIter w) (a : Int), lo ≤ a * w → a * w + n ≤ hi →
    Puts (Tw w lo hi) (fun _ => True) (@copyLoop w (Code w) _ _ S k n f a) := by
  intro k
  induction k with
  | zero => intro n f a _ _; unfold copyLoop; exact p_ub _
  | succ k ih =>
    intro n f a h1 h2
    have e2 : (a + 1) * (w : Int) = a * w + w := by ring
    unfold copyLoop
    exact p_ite (fun h => p_bind_getWord fun x => p_bind_store (tw_up hw h1 (by omega)) (ih _ _ _ (by omega) (by omega))) fun _ => p_copyTail hw h1 h2

theorem head_facts {f d : BitIter w} {t : Nat} (hw : 0 < w) (hd : d.Valid) (hp : d.pos ≠ 0) :
    Tw w d.addr (d.addr + t) d.base ∧ (f.add (min t (w - d.pos) : Nat)).Valid ∧
    (f.add (min t (w - d.pos) : Nat)).addr + ((t - min t (w - d.pos) : Nat) : Int) = f.addr + t ∧
    (t - min t (w - d.pos) = 0 ∨ d.addr ≤ (d.base + 1) * w ∧ (d.base + 1) * w + ((t - min t (w - d.pos) : Nat) : Int) ≤ d.addr + t) := by
  have e : (d.base + 1) * (w : Int) = d.base * w + w := by ring
  have hd' : d.pos < w := hd
  have ea : d.addr = d.base * w + d.pos := rfl
  refine ⟨⟨by omega, by omega⟩, BitIter.add_valid hw _ _, ?_, by omega⟩
  rw [BitIter.add_addr hw]
  omega

/-- What the head of a forward copy leaves to be done. -/
def AfterHead (f d : BitIter w) (t : Nat) (r : Nat) (f' : BitIter w) (a : Int) : Prop :=
  f'.Valid ∧ f'.addr + (r : Int) = f.addr + t ∧ (r = 0 ∨ d.addr ≤ a * w ∧ a * w + (r : Int) ≤ d.addr + t)

theorem after_none {f d : BitIter w} {t : Nat} (hf : f.Valid) (hp : ¬ d.pos ≠ 0) : AfterHead f d t t f d.base := by
  rw [not_not] at hp
  have ea : d.addr = d.base * w + d.pos := rfl
  rw [hp] at ea
  exact ⟨hf, rfl, Or.inr ⟨by omega, by omega⟩⟩

theorem p_copyHead {S : ShiftSem w} {f d : BitIter w} {t : Nat} (hw : 0 < w) (hf : f.Valid) (hd : d.Valid) :
    Puts (Tw w d.addr (d.addr + t)) (fun r => AfterHead f d t r.1 r.2.1 r.2.2) (@copyHead w (Code w) _ _ S f d t) := by
  unfold copyHead
  refine p_ite (fun hp => ?_) fun hp => p_pure (after_none hf hp)
  obtain ⟨h1, h2⟩ := head_facts (f := f) (t := t) hw hd hp
  exact p_bind_getWord fun _ => p_bind_lift fun _ => (p_blendAt (Q := fun _ => True) h1 trivial).bind fun _ _ => p_pure h2

/-- The words of the block copy. -/
theorem block {f l : BitIter w} {r : Nat} (hl : l.Valid) (hp : f.pos = 0) (h : l.addr = f.addr + r) :
    f.base ≤ l.base ∧ w * (l.base - f.base).toNat ≤ r := by
  have hw : 0 < w := lt_of_le_of_lt (Nat.zero_le _) hl
  have hl' : l.pos < w := hl
  have e1 : f.addr = f.base * w + f.pos := rfl
  have e2 : l.addr = l.base * w + l.pos := rfl
  have hle : f.base ≤ l.base := by
    by_contra hc
    have : (l.base + 1) * (w : Int) ≤ f.base * w := Int.mul_le_mul_of_nonneg_right (by omega) (by omega)
    rw [Int.add_mul] at this
    omega
  refine ⟨hle, ?_⟩
  have : ((w * (l.base - f.base).toNat : Nat) : Int) = l.base * w - f.base * w := by
    push_cast
    rw [Int.toNat_of_nonneg (by omega)]
    ring
  omega

theorem block_sum {a : Int} {r N : Nat} (h : w * N ≤ r) :
    (N : Int) * w + ((r - w * N : Nat) : Int) = r ∧ (0 : Int) ≤ N * w ∧ (a + N) * (w : Int) = a * w + N * w := by
  refine ⟨?_, by positivity, by ring⟩
  rw [Nat.cast_sub h]
  push_cast
  ring

theorem p_copy {S : ShiftSem w} {f l d : BitIter w} (hf : f.Valid) (hl : l.Valid) (hd : d.Valid) :
    Puts (Tw w d.addr (d.addr + (l.diff f).toNat)) (fun _ => True) (@copy w (Code w) _ _ S f l d) := by
  have hw : 0 < w := lt_of_le_of_lt (Nat.zero_le _) hf
  unfold copy
  refine p_bind_assert fun h0 => p_ite (fun _ => p_pure trivial) fun _ => p_bind_distance fun _ => ?_
  dsimp only
  refine (p_copyHead hw hf hd).bind ?_
  rintro ⟨r, f', a⟩ ⟨hv, ha, hr⟩
  dsimp only at hv ha hr ⊢
  refine p_ite (fun h1 => ?_) fun _ => p_pure trivial
  obtain ⟨h2, h3⟩ := hr.resolve_left (by omega)
  refine p_ite (fun hp => ?_) fun _ => (p_copyLoop hw _ _ _ _ h2 h3).bind fun _ _ => p_pure trivial
  have hb := block hl hp.1 (show l.addr = f'.addr + (r : Int) by rw [ha]; rw [BitIter.diff_eq] at h0 ⊢; omega)
  refine p_bind_wordDist fun _ => ?_
  rw [subSize_le hb.2]
  obtain ⟨e1, e2, e3⟩ := block_sum (a := a) hb.2
  refine (p_stdCopy hw h2 (by omega)).bind ?_
  rintro _ rfl
  exact (p_copyTail hw (by omega) (by omega)).bind fun _ _ => p_pure trivial

/-! ### move -/

theorem p_moveTail {S : ShiftSem w} {n : Nat} {f : BitIter w} {a : Int} (hw : 0 < w) (h1 : lo ≤ a * w) (h2 : a * w + n ≤ hi) :
    Puts (Tw w lo hi) (fun _ => True) (@moveTail w (Code w) _ _ S n f a) := by
  unfold moveTail
  exact p_ite (fun h => p_bind_getWord fun _ => p_blendLowAt (tw_up hw h1 (by omega)) trivial) fun _ => p_pure trivial

theorem p_moveLoop {S : ShiftSem w} (hw : 0 < w) : ∀ (k n : Nat) (f : BitIter w) (a : Int), lo ≤ a * w → a * w + n ≤ hi →
    Puts (Tw w lo hi) (fun _ => True) (@moveLoop w (Code w) _ _ S k n f a) := by
  intro k
  induction k with
  | zero => intro n f a _ _; unfold moveLoop; exact p_ub _
  | succ k ih =>
    intro n f a h1 h2
    have e2 : (a + 1) * (w : Int) = a * w + w := by ring
    unfold moveLoop
    exact p_ite (fun h => p_bind_getWord fun x => p_bind_store (tw_up hw h1 (by omega)) (ih _ _ _ (by omega) (by omega))) fun _ => p_moveTail hw h1 h2

theorem p_moveHead {S : ShiftSem w} {f d : BitIter w} {t : Nat} (hw : 0 < w) (hf : f.Valid) (hd : d.Valid) :
    Puts (Tw w d.addr (d.addr + t)) (fun r => AfterHead f d t r.1 r.2.1 r.2.2) (@moveHead w (Code w) _ _ S f d t) := by
  unfold moveHead
  refine p_ite (fun hp => ?_) fun hp => p_pure (after_none hf hp)
  obtain ⟨h1, h2⟩ := head_facts (f := f) (t := t) hw hd hp
  exact p_bind_getWord fun _ => p_bind_lift fun _ => (p_blendAt (Q := fun _ => True) h1 trivial).bind fun _ _ => p_pure h2

theorem p_move {S : ShiftSem w} {f l d : BitIter w} (hf : f.Valid) (hl : l.Valid) (hd : d.Valid) :
    Puts (Tw w d.addr (d.addr + (l.diff f).toNat)) (fun _ => True) (@move w (Code w) _ _ S f l d) := by
  have hw : 0 < w := lt_of_le_of_lt (Nat.zero_le _) hf
  unfold move
  refine p_bind_assert fun h0 => p_ite (fun _ => p_pure trivial) fun _ => p_bind_distance fun _ => ?_
  dsimp only
  refine (p_moveHead hw hf hd).bind ?_
  rintro ⟨r, f', a⟩ ⟨hv, ha, hr⟩
  dsimp only at hv ha hr ⊢
  refine p_ite (fun h1 => ?_) fun _ => p_pure trivial
  obtain ⟨h2, h3⟩ := hr.resolve_left (by omega)
  refine p_ite (fun hp => ?_) fun _ => (p_moveLoop hw _ _ _ _ h2 h3).bind fun _ _ => p_pure trivial
  have hb := block hl hp.1 (show l.addr = f'.addr + (r : Int) by rw [ha]; rw [BitIter.diff_eq] at h0 ⊢; omega)
  refine p_bind_wordDist fun _ => ?_
  rw [subSize_le hb.2]
  obtain ⟨e1, e2, e3⟩ := block_sum (a := a) hb.2
  refine (p_stdCopy hw h2 (by omega)).bind ?_
  rintro _ rfl
  exact (p_moveTail hw (by omega) (by omega)).bind fun _ _ => p_pure trivial

/-! ### transform -/

theorem p_transformTail {S : ShiftSem w} {op : BitVec w → BitVec w} {n : Nat} {f : BitIter w} {a : Int} (hw : 0 < w) (h1 : lo ≤ a * w) (h2 : a * w + n ≤ hi) :
    Puts (Tw w lo hi) (fun _ => True) (@transformTail w (Code w) _ _ S op n f a) := by
  unfold transformTail
  exact p_ite (fun h => p_bind_getWord fun _ => p_blendLowAt (tw_up hw h1 (by omega)) trivial) fun _ => p_pure trivial

theorem p_transformLoop {S : ShiftSem w} {op : BitVec w → BitVec w} (hw : 0 < w) : ∀ (k n : Nat) (f : BitIter w) (a : Int), lo ≤ a * w → a * w + n ≤ hi →
    Puts (Tw w lo hi) (fun _ => True) (@transformLoop w (Code w) _ _ S op k n f a) := by
  intro k
  induction k with
  | zero => intro n f a _ _; unfold transformLoop; exact p_ub _
  | succ k ih =>
    intro n f a h1 h2
    have e2 : (a + 1) * (w : Int) = a * w + w := by ring
    unfold transformLoop
    exact p_ite (fun h => p_bind_getWord fun x => p_bind_store (tw_up hw h1 (by omega)) (ih _ _ _ (by omega) (by omega))) fun _ => p_transformTail hw h1 h2

theorem p_transformHead {S : ShiftSem w} {op : BitVec w → BitVec w} {f d : BitIter w} {t : Nat} (hw : 0 < w) (hf : f.Valid) (hd : d.Valid) :
    Puts (Tw w d.addr (d.addr + t)) (fun r => AfterHead f d t r.1 r.2.1 r.2.2) (@transformHead w (Code w) _ _ S op f d t) := by
  unfold transformHead
  refine p_ite (fun hp => ?_) fun hp => p_pure (after_none hf hp)
  obtain ⟨h1, h2⟩ := head_facts (f := f) (t := t) hw hd hp
  exact p_bind_getWord fun _ => p_bind_lift fun _ => (p_blendAt (Q := fun _ => True) h1 trivial).bind fun _ _ => p_pure h2

theorem p_transform {S : ShiftSem w} {op : BitVec w → BitVec w} {f l d : BitIter w} (hf : f.Valid) (hl : l.Valid) (hd : d.Valid) :
    Puts (Tw w d.addr (d.addr + (l.diff f).toNat)) (fun _ => True) (@transform w (Code w) _ _ S op f l d) := by
  have hw : 0 < w := lt_of_le_of_lt (Nat.zero_le _) hf
  unfold transform
  refine p_bind_assert fun h0 => p_ite (fun _ => p_pure trivial) fun _ => p_bind_distance fun _ => ?_
  dsimp only
  refine (p_transformHead hw hf hd).bind ?_
  rintro ⟨r, f', a⟩ ⟨hv, ha, hr⟩
  dsimp only at hv ha hr ⊢
  refine p_ite (fun h1 => ?_) fun _ => p_pure trivial
  obtain ⟨h2, h3⟩ := hr.resolve_left (by omega)
  refine p_ite (fun hp => ?_) fun _ => (p_transformLoop hw _ _ _ _ h2 h3).bind fun _ _ => p_pure trivial
  have hb := block hl hp.1 (show l.addr = f'.addr + (r : Int) by rw [ha]; rw [BitIter.diff_eq] at h0 ⊢; omega)
  refine p_bind_wordDist fun _ => ?_
  rw [subSize_le hb.2]
  obtain ⟨e1, e2, e3⟩ := block_sum (a := a) hb.2
  refine (p_stdTransform hw h2 (by omega)).bind ?_
  rintro _ rfl
  exact (p_transformTail hw (by omega) (by omega)).bind fun _ _ => p_pure trivial

/-! ### transform2 -/

theorem p_transform2Tail {S : ShiftSem w} {op : BitVec w → BitVec w → BitVec w} {n : Nat} {f g : BitIter w} {a : Int} (hw : 0 < w) (h1 : lo ≤ a * w) (h2 : a * w + n ≤ hi) :
    Puts (Tw w lo hi) (fun _ => True) (@transform2Tail w (Code w) _ _ S op n f g a) := by
  unfold transform2Tail
  exact p_ite (fun h => p_bind_getWord fun _ => p_bind_getWord fun _ => p_blendLowAt (tw_up hw h1 (by omega)) trivial) fun _ => p_pure trivial

theorem p_transform2Loop {S : ShiftSem w} {op : BitVec w → BitVec w → BitVec w} (hw : 0 < w) : ∀ (k n : Nat) (f g : BitIter w) (a : Int), lo ≤ a * w → a * w + n ≤ hi →
    Puts (Tw w lo hi) (fun _ => True) (@transform2Loop w (Code w) _ _ S op k n f g a) := by
  intro k
  induction k with
  | zero => intro n f g a _ _; unfold transform2Loop; exact p_ub _
  | succ k ih =>
    intro n f g a h1 h2
    have e2 : (a + 1) * (w : Int) = a * w + w := by ring
    unfold transform2Loop
    exact p_ite (fun h => p_bind_getWord fun x => p_bind_getWord fun y => p_bind_store (tw_up hw h1 (by omega)) (ih _ _ _ _ (by omega) (by omega))) fun _ => p_transform2Tail hw h1 h2

theorem p_transform2Head {S : ShiftSem w} {op : BitVec w → BitVec w → BitVec w} {f g d : BitIter w} {t : Nat} (hw : 0 < w) (hf : f.Valid) (hd : d.Valid) :
    Puts (Tw w d.addr (d.addr + t)) (fun r => AfterHead f d t r.1 r.2.1 r.2.2.2) (@transform2Head w (Code w) _ _ S op f g d t) := by
  unfold transform2Head
  refine p_ite (fun hp => ?_) fun hp => p_pure (after_none hf hp)
  obtain ⟨h1, h2⟩ := head_facts (f := f) (t := t) hw hd hp
  exact p_bind_getWord fun _ => p_bind_lift fun _ => p_bind_getWord fun _ => p_bind_lift fun _ => (p_blendAt (Q := fun _ => True) h1 trivial).bind fun _ _ => p_pure h2

theorem p_transform2 {S : ShiftSem w} {op : BitVec w → BitVec w → BitVec w} {f l g d : BitIter w} (hf : f.Valid) (hl : l.Valid) (hd : d.Valid) :
    Puts (Tw w d.addr (d.addr + (l.diff f).toNat)) (fun _ => True) (@transform2 w (Code w) _ _ S op f l g d) := by
  have hw : 0 < w := lt_of_le_of_lt (Nat.zero_le _) hf
  unfold transform2
  refine p_bind_assert fun h0 => p_ite (fun _ => p_pure trivial) fun _ => p_bind_distance fun _ => ?_
  dsimp only
  refine (p_transform2Head hw hf hd).bind ?_
  rintro ⟨r, f', g', a⟩ ⟨hv, ha, hr⟩
  dsimp only at hv ha hr ⊢
  refine p_ite (fun h1 => ?_) fun _ => p_pure trivial
  obtain ⟨h2, h3⟩ := hr.resolve_left (by omega)
  refine p_ite (fun hp => ?_) fun _ => (p_transform2Loop hw _ _ _ _ _ h2 h3).bind fun _ _ => p_pure trivial
  have hb := block hl hp.1 (show l.addr = f'.addr + (r : Int) by rw [ha]; rw [BitIter.diff_eq] at h0 ⊢; omega)
  refine p_bind_wordDist fun _ => ?_
  rw [subSize_le hb.2]
  obtain ⟨e1, e2, e3⟩ := block_sum (a := a) hb.2
  refine (p_stdTransform2 hw h2 (by omega)).bind ?_
  rintro _ rfl
  exact (p_transform2Tail hw (by omega) (by omega)).bind fun _ _ => p_pure trivial

/-! ### copy_backward -/

theorem p_copyBackwardTail {S : ShiftSem w} {n : Nat} {l : BitIter w} {a : Int} (hw : 0 < w) (h1 : lo ≤ a * w - n) (h2 : a * w ≤ hi) :
    Puts (Tw w lo hi) (fun _ => True) (@copyBackwardTail w (Code w) _ _ S n l (a - 1)) := by
  unfold copyBackwardTail
  exact p_ite (fun h => p_bind_getWord fun _ => p_bind_lift fun _ => p_blendAt (tw_down hw (by omega) h2) trivial) fun _ => p_pure trivial

theorem p_copyBackwardLoop {S : ShiftSem w} (hw : 0 < w) : ∀ (k n : Nat) (l : BitIter w) (a : Int), lo ≤ a * w - n → a * w ≤ hi →
    Puts (Tw w lo hi) (fun _ => True) (@copyBackwardLoop w (Code w) _ _ S k n l a) := by
  intro k
  induction k with
  | zero => intro n f a _ _; unfold copyBackwardLoop; exact p_ub _
  | succ k ih =>
    intro n f a h1 h2
    have e2 : (a - 1) * (w : Int) = a * w - w := by ring
    unfold copyBackwardLoop
    exact p_ite (fun h => p_bind_getWord fun x => p_bind_store (tw_down hw (by omega) h2) (ih _ _ _ (by omega) (by omega))) fun _ =>
      p_copyBackwardTail hw h1 h2

theorem p_copyBackwardHead {S : ShiftSem w} {l d : BitIter w} {t : Nat} (hw : 0 < w) (hl : l.Valid) (hd : d.Valid) :
    Puts (Tw w (d.addr - t) d.addr) (fun r => r.2.Valid ∧ r.2.addr - (r.1 : Int) = l.addr - t ∧
      (r.1 = 0 ∨ d.addr - t ≤ d.base * w - (r.1 : Int) ∧ d.base * w ≤ d.addr)) (@copyBackwardHead w (Code w) _ _ S l d t) := by
  have e : (d.base + 1) * (w : Int) = d.base * w + w := by ring
  have hd' : d.pos < w := hd
  have ea : d.addr = d.base * w + d.pos := rfl
  unfold copyBackwardHead
  refine p_ite (fun hp => ?_) fun hp => p_pure ⟨hl, rfl, by omega⟩
  refine p_bind_getWord fun _ => p_bind_lift fun _ => (p_blendAt (Q := fun _ => True) ⟨by omega, by omega⟩ trivial).bind fun _ _ => p_pure ?_
  refine ⟨BitIter.add_valid hw _ _, ?_, ?_⟩
  · show (l.add _).addr - ((t - min t d.pos : Nat) : Int) = _
    rw [BitIter.add_addr hw]
    omega
  · show t - min t d.pos = 0 ∨ _ ≤ _ - ((t - min t d.pos : Nat) : Int) ∧ _
    omega

theorem p_copyBackward {S : ShiftSem w} {f l d : BitIter w} (hf : f.Valid) (hl : l.Valid) (hd : d.Valid) :
    Puts (Tw w (d.addr - (l.diff f).toNat) d.addr) (fun _ => True) (@copyBackward w (Code w) _ _ S f l d) := by
  have hw : 0 < w := lt_of_le_of_lt (Nat.zero_le _) hf
  unfold copyBackward
  refine p_bind_assert fun h0 => p_ite (fun _ => p_pure trivial) fun _ => p_bind_distance fun _ => ?_
  dsimp only
  refine (p_copyBackwardHead hw hl hd).bind ?_
  rintro ⟨r, l'⟩ ⟨hv, ha, hr⟩
  dsimp only at hv ha hr ⊢
  refine p_ite (fun h1 => ?_) fun _ => p_pure trivial
  obtain ⟨h2, h3⟩ := hr.resolve_left (by omega)
  refine p_ite (fun hp => ?_) fun _ => (p_copyBackwardLoop hw _ _ _ _ h2 h3).bind fun _ _ => p_pure trivial
  have hb : w * (l'.base - f.base - 1).toNat ≤ r := by
    have hf' : f.pos < w := hf
    have e1 : f.addr = f.base * w + f.pos := rfl
    have e2 : l'.addr = l'.base * w + l'.pos := rfl
    by_cases hN : l'.base - f.base - 1 ≤ 0
    · rw [show (l'.base - f.base - 1).toNat = 0 by omega]; omega
    · have : ((w * (l'.base - f.base - 1).toNat : Nat) : Int) = l'.base * w - f.base * w - w := by
        push_cast
        rw [Int.toNat_of_nonneg (by omega)]
        ring
      rw [BitIter.diff_eq] at h0 ha
      omega
  have eN : (l'.base - f.base - 1).toNat = (l'.base - (f.base + 1)).toNat := by congr 1; omega
  rw [eN] at hb ⊢
  rw [subSize_le hb]
  obtain ⟨e1, e2, -⟩ := block_sum (a := d.base) hb
  have e3 : (d.base - ((l'.base - (f.base + 1)).toNat : Int)) * (w : Int) = d.base * w - ((l'.base - (f.base + 1)).toNat : Int) * w := by ring
  refine (p_stdCopyBackward hw (by omega) h3).bind ?_
  rintro _ rfl
  exact (p_copyBackwardTail hw (by omega) (by omega)).bind fun _ _ => p_pure trivial

/-! ### Code without stores -/

theorem p_mk {a : Int} {p : Nat} : Puts T (fun _ => True) (@BitIter.mk? w (Code w) _ _ a p) := by
  unfold BitIter.mk?
  exact p_bind_assert fun _ => p_pure trivial
theorem p_stdFindIfN {p : BitVec w → Bool} : ∀ (n : Nat) (a : Int), Puts T (fun _ => True) (@stdFindIfN w (Code w) _ _ p n a) := by
  intro n
  induction n with
  | zero => intro a; unfold stdFindIfN; exact p_pure trivial
  | succ n ih => intro a; unfold stdFindIfN; exact p_bind_load fun _ => p_ite (fun _ => p_pure trivial) fun _ => ih _
theorem p_findWords {a : Int} {l : BitIter w} {v : Bool} : Puts T (fun _ => True) (@findWords w (Code w) _ _ a l v) := by
  unfold findWords stdFindIf
  exact (p_bind_wordDist fun _ => p_stdFindIfN _ _).bind fun _ _ => p_ite (fun _ => p_bind_load fun _ => p_mk) fun _ =>
    p_ite (fun _ => p_bind_load fun _ => p_mk) fun _ => p_pure trivial
theorem p_find {S : ShiftSem w} {f l : BitIter w} {v : Bool} : Puts T (fun _ => True) (@find w (Code w) _ _ S f l v) := by
  unfold find
  exact p_ite (fun _ => p_bind_load fun _ => p_bind_lift fun _ => p_ite (fun _ => p_bind_distance fun _ => p_pure trivial) fun _ =>
    p_ite (fun _ => p_pure trivial) fun _ => p_findWords) fun _ => p_findWords
theorem p_stdEqualN : ∀ (n : Nat) (a b : Int), Puts T (fun _ => True) (@stdEqualN w (Code w) _ _ n a b) := by
  intro n
  induction n with
  | zero => intro a b; unfold stdEqualN; exact p_pure trivial
  | succ n ih =>
    intro a b; unfold stdEqualN
    exact p_bind_load fun _ => p_bind_load fun _ => p_ite (fun _ => ih _ _) fun _ => p_pure trivial
theorem p_equalTail {S : ShiftSem w} {n : Nat} {f : BitIter w} {a : Int} : Puts T (fun _ => True) (@equalTail w (Code w) _ _ S n f a) := by
  unfold equalTail
  exact p_ite (fun _ => p_bind_lift fun _ => p_bind_getWord fun _ => p_bind_load fun _ => p_pure trivial) fun _ => p_pure trivial
theorem p_equalLoop {S : ShiftSem w} : ∀ (k n : Nat) (f : BitIter w) (a : Int), Puts T (fun _ => True) (@equalLoop w (Code w) _ _ S k n f a) := by
  intro k
  induction k with
  | zero => intro n f a; unfold equalLoop; exact p_ub _
  | succ k ih =>
    intro n f a; unfold equalLoop
    exact p_ite (fun _ => p_bind_load fun _ => p_bind_getWord fun _ => p_ite (fun _ => ih _ _ _) fun _ => p_pure trivial) fun _ => p_equalTail
theorem p_equalBody {S : ShiftSem w} {n : Nat} {f l : BitIter w} {a : Int} : Puts T (fun _ => True) (@equalBody w (Code w) _ _ S n f l a) := by
  unfold equalBody stdEqual
  exact p_ite (fun _ => p_ite (fun _ => p_bind_wordDist fun _ => (p_bind_wordDist fun _ => p_stdEqualN _ _ _).bind fun _ _ =>
    p_ite (fun _ => p_equalTail) fun _ => p_pure trivial) fun _ => p_equalLoop _ _ _ _) fun _ => p_pure trivial
theorem p_equal {S : ShiftSem w} {f l d : BitIter w} : Puts T (fun _ => True) (@equal w (Code w) _ _ S f l d) := by
  unfold equal assertViable
  exact p_bind_assert fun _ => p_ite (fun _ => p_pure trivial) fun _ => p_bind_distance fun _ => p_ite (fun _ => p_bind_lift fun _ =>
    p_bind_lift fun _ => p_bind_getWord fun _ => p_bind_lift fun _ => p_bind_load fun _ => p_ite (fun _ => p_equalBody) fun _ => p_pure trivial)
    fun _ => p_equalBody
theorem p_popcntWords : ∀ (n : Nat) (a : Int), Puts T (fun _ => True) (@popcntWords w (Code w) _ _ n a) := by
  intro n
  induction n with
  | zero => intro a; unfold popcntWords; exact p_pure trivial
  | succ n ih => intro a; unfold popcntWords; exact p_bind_load fun _ => (ih _).bind fun _ _ => p_pure trivial
theorem p_count {S : ShiftSem w} {f l : BitIter w} {v : Bool} : Puts T (fun _ => True) (@count w (Code w) _ _ S f l v) := by
  unfold count assertViable
  refine p_bind_assert fun _ => p_ite (fun _ => ?_) fun _ => p_bind_load fun _ => p_bind_lift fun _ => p_pure trivial
  have hk : ∀ (r0 : Nat) (it : Int), Puts T (fun _ => True) (do
      let n ← wordDist it l.base
      let r1 ← popcntWords n it
      if l.pos ≠ 0 then do
        let x ← load l.base
        let x ← lift (S.shl x (w - l.pos))
        let ones ← pure (r0 + r1 + popcnt x)
        pure (if v = true then (ones : Int) else l.diff f - (ones : Int))
      else do
        let ones ← pure (r0 + r1)
        pure (if v = true then (ones : Int) else l.diff f - (ones : Int)) : Code w Int) := fun r0 it =>
    p_bind_wordDist fun _ => (p_popcntWords _ _).bind fun _ _ => p_ite (fun _ => p_bind_load fun _ => p_bind_lift fun _ => p_pure trivial)
      fun _ => p_pure trivial
  exact p_ite (fun _ => p_bind_load fun _ => p_bind_lift fun _ => hk _ _) fun _ => hk _ _
theorem p_refToBool {r : BitRef w} : Puts T (fun _ => True) (@refToBool w (Code w) _ _ r) := by
  unfold refToBool
  exact p_bind_load fun _ => p_pure trivial

end Gen
end BitLib
