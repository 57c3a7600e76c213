import Verif.Lemmas.CopyBackward
import Verif.Lemmas.Reverse
/- The runs that perform a shift by the word width, for words that are not promoted. -/
namespace BitLib
variable {w : Nat} {α β : Type}

/-- The strict semantics of words that are not promoted (32 and 64 bits). -/
abbrev Unpromoted (w : Nat) : ShiftSem w := ShiftSem.strict w (Nat.le_refl w)

theorem shl_full (x : BitVec w) : (Unpromoted w).shl x w = .error .overshift := by
  unfold ShiftSem.shl
  rw [if_neg (show ¬ w < (Unpromoted w).pw from Nat.lt_irrefl w)]
  rfl

theorem fails_blendAt_full {a : Int} {src : BitVec w} {start : Nat} {m : Mem w}
    (hw : 0 < w) (hm : (bitAt m (a * w)).isSome) : fails (blendAt (Unpromoted w) a src start w) m .overshift := by
  unfold blendAt
  refine fails_bind ?_
  refine wp_load_bits hw (a * w) (by omega) (by omega) hm ?_
  intro x _
  refine fails_bind_left ?_
  unfold bitblend4
  rw [shl_full]
  rfl

theorem fails_shiftLeft_word {first last : BitIter w} {n : Int} {m : Mem w} (hf : first.Valid) (hl : last.Valid)
    (hm : Mapped m first.addr last.addr) (h0 : first.pos = 0) (hd : last.addr - first.addr = w) (hn0 : 0 < n) (hnw : n < w) :
    fails (shiftLeft (Unpromoted w) first last n) m .overshift := by
  have hf' : first.pos < w := hf
  have hl' : last.pos < w := hl
  have hw : 0 < w := by omega
  have hfa : first.addr = first.base * w + first.pos := rfl
  have hla : last.addr = last.base * w + last.pos := rfl
  have hlb : last = ⟨first.base + 1, 0⟩ := BitIter.addr_inj hl hw (by
    show last.addr = (first.base + 1) * (w : Int) + (0 : Nat)
    rw [Int.add_mul]; omega)
  unfold shiftLeft
  refine fails_bind ?_
  rw [wp_assertViable]
  refine ⟨by omega, ?_⟩
  refine fails_bind ?_
  rw [wp_distance]
  refine ⟨by omega, ?_⟩
  dsimp only
  rw [if_neg (by omega), if_neg (by omega), hlb]
  dsimp only
  rw [if_pos rfl, if_pos (by simp), if_pos rfl]
  refine fails_bind ?_
  rw [wp_shr _ (by omega)]
  refine fails_bind ?_
  refine wp_load_bits hw first.addr (by omega) (by omega) (hm _ (by omega) (by omega)) ?_
  intro x _
  refine fails_bind ?_
  rw [wp_shr _ (by omega)]
  refine fails_bind_left ?_
  rw [h0, Nat.sub_zero]
  refine fails_blendAt_full hw ?_
  rw [show first.base * (w : Int) = first.addr by omega]
  exact hm _ (by omega) (by omega)

theorem fails_shiftRight_word {first last : BitIter w} {n : Int} {m : Mem w} (hf : first.Valid) (hl : last.Valid)
    (hm : Mapped m first.addr last.addr) (h0 : first.pos = 0) (hd : last.addr - first.addr = w) (hn0 : 0 < n) (hnw : n < w) :
    fails (shiftRight (Unpromoted w) first last n) m .overshift := by
  have hf' : first.pos < w := hf
  have hl' : last.pos < w := hl
  have hw : 0 < w := by omega
  have hfa : first.addr = first.base * w + first.pos := rfl
  have hla : last.addr = last.base * w + last.pos := rfl
  have hlb : last = ⟨first.base + 1, 0⟩ := BitIter.addr_inj hl hw (by
    show last.addr = (first.base + 1) * (w : Int) + (0 : Nat)
    rw [Int.add_mul]; omega)
  unfold shiftRight
  refine fails_bind ?_
  rw [wp_distance]
  refine ⟨by omega, ?_⟩
  dsimp only
  rw [if_neg (by omega), if_neg (by omega), hlb]
  dsimp only
  rw [if_pos rfl, if_pos (by simp), if_pos rfl]
  refine fails_bind ?_
  rw [wp_shl _ (by omega)]
  refine fails_bind ?_
  refine wp_load_bits hw first.addr (by omega) (by omega) (hm _ (by omega) (by omega)) ?_
  intro x _
  refine fails_bind ?_
  rw [wp_shl _ (by omega)]
  refine fails_bind_left ?_
  rw [h0, Nat.sub_zero]
  refine fails_blendAt_full hw ?_
  rw [show first.base * (w : Int) = first.addr by omega]
  exact hm _ (by omega) (by omega)

theorem fails_reverse_word {first last : BitIter w} {m : Mem w} (hf : first.Valid) (hl : last.Valid)
    (hm : Mapped m first.addr last.addr) (h0 : first.pos ≠ 0) (hd : last.addr = (first.base + 1) * w) :
    fails (reverse (Unpromoted w) first last) m .overshift := by
  have hf' : first.pos < w := hf
  have hl' : last.pos < w := hl
  have hw : 0 < w := by omega
  have hfa : first.addr = first.base * w + first.pos := rfl
  have hla : last.addr = last.base * w + last.pos := rfl
  have hlb : last = ⟨first.base + 1, 0⟩ := BitIter.addr_inj hl hw (by
    show last.addr = (first.base + 1) * (w : Int) + (0 : Nat)
    omega)
  have hB : (first.base + 1) * (w : Int) = first.base * w + w := by ring
  have hmw : Mapped m (first.base * w) ((first.base + 1) * w) := by
    have := hm.word_start hf (by omega)
    rwa [hd] at this
  unfold reverse
  refine fails_bind ?_
  rw [wp_assertViable]
  refine ⟨by omega, ?_⟩
  dsimp only
  rw [if_neg (by omega), hlb]
  dsimp only
  rw [if_pos rfl, if_pos (by omega), if_pos rfl, if_pos rfl]
  refine fails_bind ?_
  refine wp_load_bits hw (first.base * w) (by omega) (by omega) (hmw _ (by omega) (by omega)) ?_
  intro fv _
  refine fails_bind ?_
  refine wp_load_bits hw (first.base * w) (by rw [show first.base + 1 - 1 = first.base by omega]) (by
    rw [show first.base + 1 - 1 = first.base by omega]; omega) (hmw _ (by omega) (by omega)) ?_
  intro lv _
  rw [Int.add_zero]
  have key : wp (do stdReverse first.base (first.base + 1)
                    let _ ← stdTransform first.base (first.base + 1) first.base bitswap
                    pure () : M w Unit) m fun _ m1 => SameMapped m m1 := by
    refine wp_reverseWords hw (by omega) hmw ?_
    intro m1 h1
    rw [wp_pure]
    exact h1.sameMapped hmw
  rw [wp_bind] at key
  refine fails_bind (wp_mono key ?_)
  intro _ m1 key1
  rw [wp_bind] at key1
  refine fails_bind (wp_mono key1 ?_)
  intro _ m2 sm
  rw [wp_pure] at sm
  refine fails_bind_left ?_
  unfold reverseShift
  rw [if_neg (by omega), if_pos (by omega)]
  refine fails_bind_left ?_
  have e1 : (BitIter.aligned first.base : BitIter w).addr = first.base * w := by unfold BitIter.addr BitIter.aligned; simp
  have e2 : (BitIter.aligned (first.base + 1) : BitIter w).addr = (first.base + 1) * w := by unfold BitIter.addr BitIter.aligned; simp
  refine fails_shiftRight_word hw hw ?_ rfl (by omega) (by omega) (by omega)
  rw [e1, e2]
  exact sm.mapped hmw

theorem fails_copyBackward_words {first last d : BitIter w} {m : Mem w} (hf : first.Valid) (hl : last.Valid) (hd : d.Valid)
    (hm1 : Mapped m first.addr last.addr) (hm2 : Mapped m (d.addr - (last.addr - first.addr)) d.addr)
    (hov : last.addr ≤ d.addr ∨ d.addr ≤ first.addr)
    (h0 : first.pos = 0) (hp : last.pos = d.pos) (hb : first.base + 2 ≤ last.base) :
    fails (copyBackward (Unpromoted w) first last d) m .overshift := by
  have hf' : first.pos < w := hf
  have hl' : last.pos < w := hl
  have hw : 0 < w := by omega
  have hfa : first.addr = first.base * w + first.pos := rfl
  have hla : last.addr = last.base * w + last.pos := rfl
  have hda : d.addr = d.base * w + d.pos := rfl
  have hbw := base_le_mul (w := w) hb
  have hbw2 : (first.base + 2) * (w : Int) = first.base * w + w + w := by ring
  rw [copyBackward_eq_body]
  refine fails_bind ?_
  rw [wp_assertViable]
  refine ⟨by omega, ?_⟩
  have hbeq : ¬ first.beq last := by rw [BitIter.beq_iff hf hl]; omega
  rw [if_neg hbeq]
  refine fails_bind ?_
  rw [wp_distance]
  refine ⟨by omega, ?_⟩
  obtain ⟨n, hn⟩ : ∃ n : Nat, last.addr - first.addr = n := ⟨(last.addr - first.addr).toNat, by omega⟩
  rw [hn, Int.toNat_natCast]
  rw [hn] at hm2
  have hm1' : Mapped m (last.addr - n) last.addr := hm1.sub (by omega) (by omega)
  refine fails_bind ?_
  refine wp_copyBackwardHead (Unpromoted w) hl hd (by omega) hm1' hm2 ?_
  intro m1 k last' hk hl1 hla1 hit hmd
  dsimp only
  have hl1' : last'.pos < w := hl1
  have hms : Mapped m (last.addr - k) (last.addr - k + k) := hm1.sub (by omega) (by omega)
  have hla1' : last'.addr = last'.base * w + last'.pos := rfl
  have hkp : k = last.pos := by omega
  have hl2 : last' = ⟨last.base, 0⟩ := BitIter.addr_inj hl1 hw (by
    show last'.addr = last.base * (w : Int) + (0 : Nat)
    omega)
  refine fails_bind_left ?_
  rw [hl2]
  rw [hl2] at hla1
  unfold copyBackwardBody
  dsimp only
  rw [if_pos (by omega), if_pos (by omega)]
  obtain ⟨N, hN⟩ : ∃ N : Nat, last.base = first.base + 1 + N := ⟨(last.base - first.base - 1).toNat, by omega⟩
  have eN : (last.base - first.base - 1).toNat = N := by omega
  have eN' : (last.base - (first.base + 1)).toNat = N := by omega
  have hNw : last.base * (w : Int) = first.base * w + w + N * w := by rw [hN]; ring
  have hNN : ((w * N : Nat) : Int) = N * w := by push_cast; ring
  have hNpos : 0 ≤ (N : Int) * w := Int.mul_nonneg (by omega) (by omega)
  have e1 : ((⟨last.base, 0⟩ : BitIter w).sub ((w : Int) * N)).addr = first.base * w + w := by
    rw [BitIter.sub_addr hw]
    show last.base * (w : Int) + (0 : Nat) - _ = _
    rw [hNw]; ring
  have hsm : ∀ a b, Mapped m a b → Mapped m1 a b := fun a b h => hmd.mapped hms h
  have hm2' := hm2
  rw [eN]
  unfold stdCopyBackward
  refine fails_bind ?_
  rw [wp_bind, wp_wordDist, eN']
  refine ⟨by omega, ?_⟩
  refine wp_stdCopyBackwardN hw N ?_ ?_ ?_ ?_
  · exact hsm _ _ (hm1.sub (by omega) (by omega))
  · exact hsm _ _ (hm2.sub (by omega) (by omega))
  · omega
  · intro m2 hmd2
    have hsub : Mapped m1 (last.base * w - N * w) (last.base * w - N * w + N * w) :=
      hsm _ _ (hm1.sub (by omega) (by omega))
    rw [show subSize (n - k) (w * N) = w by rw [subSize_le (by omega)]; omega]
    unfold copyBackwardTail
    rw [if_pos hw]
    have e2 : (((⟨last.base, 0⟩ : BitIter w).sub ((w : Int) * N)).sub w).addr = first.base * w := by
      rw [BitIter.sub_addr hw, e1]; omega
    refine fails_bind ?_
    refine wp_getWord (Unpromoted w) (BitIter.sub_valid hw _ _) (by omega) hw ?_ ?_
    · rw [e2]; exact hmd2.mapped hsub (hsm _ _ (hm1.sub (by omega) (by omega)))
    intro x _
    refine fails_bind ?_
    rw [wp_shl _ (by omega)]
    refine fails_blendAt_full hw ?_
    have e3 : (d.base - N - 1) * (w : Int) = d.base * w - N * w - w := by ring
    rw [e3]
    exact hmd2.mapped hsub (hsm _ _ hm2) _ (by omega) (by omega)

end BitLib
