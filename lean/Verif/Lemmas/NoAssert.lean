import Verif.Lemmas.CopyBackward
import Verif.Model.Shift
/- Programs in which no assertion fails, whatever the memory and the overlap of the ranges (C105). -/
namespace BitLib
variable {w : Nat} {α β : Type}

/-- No assertion fails, and a result has the property `Q`. -/
def NA (x : M w α) (Q : α → Prop) : Prop := ∀ m, (∃ e, x m = .error e ∧ e ≠ .assertFail) ∨ ∃ a m', x m = .ok (a, m') ∧ Q a

theorem NA.never {x : M w α} {Q : α → Prop} (h : NA x Q) (m : Mem w) : x m ≠ .error .assertFail := by
  rcases h m with ⟨e, h1, h2⟩ | ⟨a, m', h1, _⟩ <;> rw [h1] <;> intro h3 <;> cases h3
  exact h2 rfl

theorem na_mono {x : M w α} {Q R : α → Prop} (h : NA x Q) (hq : ∀ a, Q a → R a) : NA x R := fun m =>
  (h m).imp_right fun ⟨a, m', h1, h2⟩ => ⟨a, m', h1, hq a h2⟩

theorem na_pure {a : α} {Q : α → Prop} (h : Q a) : NA (pure a : M w α) Q := fun m => .inr ⟨a, m, rfl, h⟩

theorem na_bind {x : M w α} {f : α → M w β} {Q : α → Prop} {R : β → Prop} (h : NA x Q) (hf : ∀ a, Q a → NA (f a) R) : NA (x >>= f) R := by
  intro m
  have key : (x >>= f) m = Except.bind (x m) fun p => f p.1 p.2 := rfl
  rcases h m with ⟨e, h1, h2⟩ | ⟨a, m', h1, h2⟩
  · exact .inl ⟨e, by rw [key, h1]; rfl, h2⟩
  · rcases hf a h2 m' with ⟨e, h3, h4⟩ | ⟨b, m2, h3, h4⟩
    · exact .inl ⟨e, by rw [key, h1]; exact h3, h4⟩
    · exact .inr ⟨b, m2, by rw [key, h1]; exact h3, h4⟩

/-- The usual case: nothing needs to be known of the value. -/
theorem na_seq {x : M w α} {f : α → M w β} {R : β → Prop} (h : NA x fun _ => True) (hf : ∀ a, NA (f a) R) : NA (x >>= f) R :=
  na_bind h fun a _ => hf a

theorem na_load (a : Int) : NA (load a : M w _) fun _ => True := by
  intro m
  unfold load
  cases m a with
  | none => exact .inl ⟨_, rfl, by intro h; cases h⟩
  | some x => exact .inr ⟨x, m, rfl, trivial⟩

theorem na_store (a : Int) (x : BitVec w) : NA (store a x) fun _ => True := by
  intro m
  unfold store
  cases m a with
  | none => exact .inl ⟨_, rfl, by intro h; cases h⟩
  | some y => exact .inr ⟨(), m.set a x, rfl, trivial⟩

theorem na_ub {e : UB} {Q : α → Prop} (h : e ≠ .assertFail) : NA (ub e : M w α) Q := fun _ => .inl ⟨e, rfl, h⟩

/-- A computation that does not report a failed assertion. -/
def Fine (e : Except UB α) : Prop := e ≠ .error .assertFail

theorem na_lift {e : Except UB α} (h : Fine e) : NA (lift e : M w α) fun _ => True := by
  intro m
  unfold lift
  cases e with
  | ok a => exact .inr ⟨a, m, rfl, trivial⟩
  | error u => exact .inl ⟨u, rfl, fun hu => h (by rw [hu])⟩

theorem fine_bind {x : Except UB α} {f : α → Except UB β} (h : Fine x) (hf : ∀ a, Fine (f a)) : Fine (x >>= f) := by
  cases x with
  | ok a => exact hf a
  | error u => intro h'; apply h; cases h'; rfl

theorem fine_pure (a : α) : Fine (pure a : Except UB α) := by intro h; cases h

theorem na_ite {c : Prop} [Decidable c] {x y : M w α} {Q : α → Prop} (hx : c → NA x Q) (hy : ¬ c → NA y Q) : NA (if c then x else y) Q := by
  split
  · exact hx ‹_›
  · exact hy ‹_›

theorem na_assertM {c : Prop} [Decidable c] (h : c) : NA (assertM c : M w Unit) fun _ => True := by
  unfold assertM; rw [if_pos h]; exact na_pure trivial

theorem na_wordDist (a b : Int) : NA (wordDist a b : M w Nat) fun n => a ≤ b ∧ n = (b - a).toNat := by
  unfold wordDist
  exact na_ite (fun h => na_pure ⟨h, rfl⟩) (fun _ => na_ub (by intro h; cases h))

section
variable {pw : Nat} (hp : w ≤ pw)
include hp

theorem fine_shl (x : BitVec w) (n : Nat) : Fine ((ShiftSem.strict pw hp).shl x n) := by
  unfold ShiftSem.shl; split <;> intro h <;> cases h

theorem fine_shr (x : BitVec w) (n : Nat) : Fine ((ShiftSem.strict pw hp).shr x n) := by
  unfold ShiftSem.shr; split <;> intro h <;> cases h

theorem fine_blend (x y : BitVec w) (s n : Nat) : Fine (bitblend4 (.strict pw hp) x y s n) :=
  fine_bind (fine_shl hp _ _) fun _ => fine_bind (fine_shl hp _ _) fun _ => fine_pure _

theorem na_blendAt (it : Int) (x : BitVec w) (s n : Nat) : NA (blendAt (.strict pw hp) it x s n) fun _ => True :=
  na_seq (na_load _) fun _ => na_seq (na_lift (fine_blend hp _ _ _ _)) fun _ => na_store _ _

theorem na_getWord (it : BitIter w) {n : Nat} (hn : n ≤ w) : NA (getWord (.strict pw hp) it n) fun _ => True := by
  unfold getWord
  refine na_seq (na_assertM hn) fun _ => na_seq (na_load _) fun _ => na_seq (na_lift (fine_shr hp _ _)) fun _ => na_ite (fun _ => na_pure trivial) fun _ => ?_
  exact na_seq (na_load _) fun _ => na_seq (na_lift (fine_shl hp _ _)) fun _ => na_lift (fine_blend hp _ _ _ _)

theorem na_writeWord (x : BitVec w) (it : BitIter w) (n : Nat) : NA (writeWord (.strict pw hp) x it n) fun _ => True := by
  unfold writeWord
  refine na_ite (fun _ => na_store _ _) fun _ => na_seq (na_lift (fine_shl hp _ _)) fun _ => na_seq (na_blendAt hp _ _ _ _) fun _ =>
    na_ite (fun _ => ?_) fun _ => na_pure trivial
  exact na_seq (na_lift (fine_shr hp _ _)) fun _ => na_blendAt hp _ _ _ _

theorem na_copyBackwardHead (last d : BitIter w) (hd : d.Valid) (n : Nat) :
    NA (copyBackwardHead (.strict pw hp) last d n) fun r => r = (n - min n d.pos, last.add (-((min n d.pos : Nat) : Int))) ∨ (d.pos = 0 ∧ r = (n, last)) := by
  have hd' : d.pos < w := hd
  unfold copyBackwardHead
  refine na_ite (fun _ => ?_) (fun h => na_pure (.inr ⟨by omega, rfl⟩))
  exact na_seq (na_getWord hp _ (by omega)) fun _ => na_seq (na_lift (fine_shl hp _ _)) fun _ => na_seq (na_blendAt hp _ _ _ _) fun _ =>
    na_pure (.inl rfl)

theorem na_copyBackwardTail {n : Nat} (last : BitIter w) (it : Int) (hn : n ≤ w) : NA (copyBackwardTail (.strict pw hp) n last it) fun _ => True := by
  unfold copyBackwardTail
  exact na_ite (fun _ => na_seq (na_getWord hp _ hn) fun _ => na_seq (na_lift (fine_shl hp _ _)) fun _ => na_blendAt hp _ _ _ _)
    (fun _ => na_pure trivial)

theorem na_copyBackwardLoop : ∀ (fuel n : Nat) (last : BitIter w) (it : Int), NA (copyBackwardLoop (.strict pw hp) fuel n last it) fun _ => True
  | 0, _, _, _ => na_ub (by intro h; cases h)
  | fuel+1, n, last, it => by
    unfold copyBackwardLoop
    exact na_ite (fun _ => na_seq (na_getWord hp _ (le_refl _)) fun _ => na_seq (na_store _ _) fun _ => na_copyBackwardLoop fuel _ _ _)
      (fun _ => na_copyBackwardTail hp _ _ (by omega))

omit hp in
theorem na_stdCopyBackwardN : ∀ (n : Nat) (a b : Int), NA (stdCopyBackwardN n a b : M w Int) fun _ => True
  | 0, _, _ => na_pure trivial
  | n+1, _, _ => na_seq (na_load _) fun _ => na_seq (na_store _ _) fun _ => na_stdCopyBackwardN n _ _

omit hp in
theorem na_viable {f l : BitIter w} (h : f.addr ≤ l.addr) : NA (assertViable f l : M w Unit) fun _ => True := by
  unfold assertViable
  exact na_assertM (by rw [BitIter.diff_eq]; omega)

omit hp in
theorem na_distance {f l : BitIter w} (h : f.addr ≤ l.addr) : NA (distance f l : M w Int) fun n => n = l.addr - f.addr := by
  unfold distance
  exact na_seq (na_viable h) fun _ => na_pure (BitIter.diff_eq _ _)

/-- No assertion fails in `copy_backward` unless the range is reversed. -/
theorem na_copyBackward {f l d : BitIter w} (hf : f.Valid) (hl : l.Valid) (hd : d.Valid) (h : f.addr ≤ l.addr) :
    NA (copyBackward (.strict pw hp) f l d) fun _ => True := by
  have hw : 0 < w := Nat.lt_of_le_of_lt (Nat.zero_le _) hf
  rw [copyBackward_eq_body]
  refine na_seq (na_viable h) fun _ => na_ite (fun _ => na_pure trivial) fun _ => na_bind (na_distance h) fun n hn => ?_
  subst hn
  obtain ⟨n, hn⟩ : ∃ n : Nat, l.addr - f.addr = n := ⟨(l.addr - f.addr).toNat, by omega⟩
  rw [hn, Int.toNat_natCast]
  refine na_bind (na_copyBackwardHead hp l d hd n) fun r hr => na_seq ?_ fun _ => na_pure trivial
  obtain ⟨k, hk, hl', hla⟩ : ∃ k, k ≤ n ∧ r.1 = n - k ∧ r.2.addr = l.addr - k ∧ r.2.Valid := by
    rcases hr with rfl | ⟨_, rfl⟩
    · exact ⟨min n d.pos, by omega, rfl, by rw [BitIter.add_addr hw]; omega, BitIter.add_valid hw _ _⟩
    · exact ⟨0, by omega, rfl, by simp, hl⟩
  rw [hl']
  obtain ⟨rem, l'⟩ := r
  dsimp only at hla ⊢
  unfold copyBackwardBody
  refine na_ite (fun h0 => na_ite (fun h1 => ?_) fun _ => na_copyBackwardLoop hp _ _ _ _) fun _ => na_pure trivial
  unfold stdCopyBackward
  refine na_seq (na_seq (na_mono (na_wordDist _ _) fun _ _ => trivial) fun _ => na_stdCopyBackwardN _ _ _) fun _ => na_copyBackwardTail hp _ _ ?_
  have e1 : l'.addr = l'.base * w := by show l'.base * (w : Int) + l'.pos = _; omega
  have hfa : f.addr = f.base * w + f.pos := rfl
  have hf' : f.pos < w := hf
  have hbase : f.base + 1 ≤ l'.base := by
    by_contra hc
    have := base_le_mul (w := w) (a := l'.base) (b := f.base) (by omega)
    omega
  obtain ⟨N, hN⟩ : ∃ N : Nat, l'.base = f.base + 1 + N := ⟨(l'.base - f.base - 1).toNat, by omega⟩
  rw [show (l'.base - f.base - 1).toNat = N by omega]
  have hNw : l'.base * (w : Int) = f.base * w + w + N * w := by rw [hN]; ring
  have hNN : ((w * N : Nat) : Int) = N * w := by push_cast; ring
  rw [subSize_le (by omega)]
  omega

/-! ### swap_ranges -/

theorem fine_mask (n : Nat) : Fine (exchMask (.strict pw hp) n) := by
  unfold exchMask
  split
  · exact fine_bind (fine_shl hp _ _) fun _ => fine_pure _
  · exact fine_pure _

theorem na_exchStepL (a b : Int) (n : Nat) (k : BitVec w) (s : Nat) : NA (exchStepL (.strict pw hp) a b n k s) fun _ => True :=
  na_seq (na_load _) fun _ => na_seq (na_load _) fun _ => na_seq (na_lift (fine_shl hp _ _)) fun _ => na_seq (na_lift (fine_shl hp _ _)) fun _ => na_store _ _

theorem na_exchStepR (a b : Int) (n : Nat) (k : BitVec w) (s : Nat) : NA (exchStepR (.strict pw hp) a b n k s) fun _ => True :=
  na_seq (na_load _) fun _ => na_seq (na_load _) fun _ => na_seq (na_lift (fine_shr hp _ _)) fun _ => na_seq (na_lift (fine_shl hp _ _)) fun _ => na_store _ _

theorem na_bitexch5 (a b : Int) (s t n : Nat) : NA (bitexch5 (.strict pw hp) a b s t n) fun _ => True := by
  unfold bitexch5
  refine na_seq (na_lift (fine_mask hp n)) fun _ => na_ite (fun _ => ?_) fun _ => ?_
  · exact na_seq (na_exchStepL hp _ _ _ _ _) fun _ => na_seq (na_exchStepR hp _ _ _ _ _) fun _ => na_exchStepL hp _ _ _ _ _
  · exact na_seq (na_exchStepR hp _ _ _ _ _) fun _ => na_seq (na_exchStepL hp _ _ _ _ _) fun _ => na_exchStepR hp _ _ _ _ _

theorem na_bitexch4 (a b : Int) (s n : Nat) : NA (bitexch4 (.strict pw hp) a b s n) fun _ => True := by
  unfold bitexch4
  refine na_seq (na_lift ?_) fun _ => ?_
  · split
    · exact fine_bind (fine_shl hp _ _) fun _ => fine_shl hp _ _
    · exact fine_pure _
  · unfold bitexch3
    repeat' first | exact na_store _ _ | exact na_load _ | refine na_seq ?_ fun _ => ?_

omit hp in
theorem na_mk {a : Int} {p : Nat} (h : p < w) : NA (BitIter.mk? a p : M w (BitIter w)) fun _ => True := by
  unfold BitIter.mk?
  exact na_seq (na_assertM h) fun _ => na_pure trivial

omit hp in
theorem na_stdSwapRangesN : ∀ (n : Nat) (a b : Int), NA (stdSwapRangesN n a b : M w Int) fun _ => True
  | 0, _, _ => na_pure trivial
  | n+1, _, _ => na_seq (na_load _) fun _ => na_seq (na_load _) fun _ => na_seq (na_store _ _) fun _ => na_seq (na_store _ _) fun _ =>
      na_stdSwapRangesN n _ _

theorem na_swapLoop (e : Int) (p : Nat) : ∀ (fuel : Nat) (a b : Int), NA (swapLoop (.strict pw hp) e p fuel a b) fun _ => True
  | 0, _, _ => na_ub (by intro h; cases h)
  | fuel+1, a, b => by
    unfold swapLoop
    exact na_ite (fun _ => na_seq (na_bitexch5 hp _ _ _ _ _) fun _ => na_seq (na_bitexch5 hp _ _ _ _ _) fun _ => na_swapLoop e p fuel _ _)
      fun _ => na_pure trivial

/-- No assertion fails in `swap_ranges` unless the range is reversed. -/
theorem na_swapRanges {f l d : BitIter w} (hl : l.Valid) (h : f.addr ≤ l.addr) :
    NA (swapRanges (.strict pw hp) f l d) fun _ => True := by
  have hl' : l.pos < w := hl
  have hw : 0 < w := by omega
  unfold swapRanges
  refine na_seq (na_viable h) fun _ => na_ite (fun _ => na_pure trivial) fun _ => na_ite (fun _ => ?_) fun _ => na_ite (fun _ => ?_) fun _ => ?_
  · unfold swapSingle
    refine na_bind (na_distance h) fun n _ => na_ite (fun _ => ?_) fun _ => ?_
    · exact na_seq (na_bitexch5 hp _ _ _ _ _) fun _ => na_pure trivial
    · exact na_seq (na_bitexch5 hp _ _ _ _ _) fun _ => na_ite (fun _ => na_seq (na_bitexch5 hp _ _ _ _ _) fun _ => na_pure trivial)
        fun _ => na_pure trivial
  · unfold swapAligned stdSwapRanges
    refine na_seq (na_bitexch4 hp _ _ _ _) fun _ => na_seq (na_seq (na_mono (na_wordDist _ _) fun _ _ => trivial) fun _ => na_stdSwapRangesN _ _ _)
      fun _ => na_ite (fun _ => na_seq (na_bitexch4 hp _ _ _ _) fun _ => na_mk hl') fun _ => na_mk hl'
  · unfold swapMisaligned swapMisHead
    have hv : (d.add ((w - f.pos : Nat) : Int)).pos < w := BitIter.add_valid hw _ _
    refine na_seq (na_ite (fun _ => na_seq (na_bitexch5 hp _ _ _ _ _) fun _ => na_pure trivial)
      fun _ => na_seq (na_bitexch5 hp _ _ _ _ _) fun _ => na_seq (na_bitexch5 hp _ _ _ _ _) fun _ => na_pure trivial) fun _ =>
      na_seq (na_swapLoop hp _ _ _ _ _) fun _ => na_ite (fun _ => na_ite (fun _ => ?_) fun _ => ?_) fun _ => na_mk hv
    · exact na_seq (na_bitexch5 hp _ _ _ _ _) fun _ => na_seq (na_mk hv) fun _ => na_pure trivial
    · exact na_seq (na_bitexch5 hp _ _ _ _ _) fun _ => na_seq (na_bitexch5 hp _ _ _ _ _) fun _ => na_mk (by omega)

end
end BitLib
