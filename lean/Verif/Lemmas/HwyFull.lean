import Verif.Lemmas.Hwy
import Verif.Lemmas.Query
/-
The programs of Model/Hwy.lean are the scalar programs.
-/
namespace BitLib
variable {w : Nat} {α β : Type}

theorem assertViable_pure {first last : BitIter w} (h : first.addr ≤ last.addr) : (assertViable first last : M w Unit) = pure () := by
  unfold assertViable assertM
  rw [if_pos (by rw [BitIter.diff_eq]; omega)]

theorem distance_pure {first last : BitIter w} (h : first.addr ≤ last.addr) :
    (distance first last : M w Int) = pure (last.addr - first.addr) := by
  unfold distance
  rw [assertViable_pure h, pure_bind]
  congr 1
  have := BitIter.diff_eq last first
  unfold BitIter.diff at this
  exact this

theorem fillHwy_eq (S : ShiftSem w) {U : Simd} (hU : U.Ok) {first last : BitIter w} (v : Bool) (hf : first.Valid) (hl : last.Valid)
    (hle : first.addr ≤ last.addr) : fillHwy S U first last v = fill S first last v := by
  have hb := base_le_of_addr hl hle
  unfold fillHwy fill
  rw [assertViable_pure hle, distance_pure hle]
  simp only [pure_bind]
  by_cases hd : last.addr - first.addr = 0
  · rw [if_pos hd, if_pos hd]
  · rw [if_neg hd, if_neg hd]
    by_cases hi : isWithin w first last = true
    · rw [if_pos hi, if_pos hi]
    · rw [if_neg hi, if_neg hi]
      rw [isWithin_iff _ _ _ hf hl hle] at hi
      have hb1 : first.base + 1 ≤ last.base := by
        by_contra hc
        have e : first.base = last.base := by omega
        have h1 : last.addr - first.addr = last.pos - first.pos := by unfold BitIter.addr; rw [e]; omega
        have : last.pos < w := hl
        omega
      rw [hwyFillWords_eq hU _ _ _ hb1, hwyFillWords_eq hU _ _ _ hb]

theorem mapped_word_of_le {m : Mem w} {first last : BitIter w} (hm : Mapped m first.addr last.addr) {c : Int}
    (h1 : first.base ≤ c) (h2 : c < last.base) (hf : first.Valid) : ∃ x, m c = some x := by
  have hf' : first.pos < w := hf
  have h3 := base_lt_mul (w := w) h2
  have h4 := base_le_mul (w := w) h1
  have : (bitAt m (c * w + ((w - 1 : Nat) : Int))).isSome := hm _ (by unfold BitIter.addr; omega) (by unfold BitIter.addr; omega)
  unfold bitAt at this
  rw [show (c * (w : Int) + ((w - 1 : Nat) : Int)) / (w : Int) = c by
    rw [Int.add_comm, Int.add_mul_ediv_right _ _ (by omega), Int.ediv_eq_zero_of_lt (by omega) (by omega)]; omega] at this
  cases h : m c with
  | none => simp [h] at this
  | some x => exact ⟨x, rfl⟩

theorem findHwy_eq (S : ShiftSem w) {U : Simd} (hU : U.Ok) {first last : BitIter w} (v : Bool) {m : Mem w} (hr : Range m first last)
    : findHwy S U first last v m = find S first last v m := by
  obtain ⟨hf, hl, hle, hm⟩ := hr
  have hb := base_le_of_addr hl hle
  have hf' : first.pos < w := hf
  have hl' : last.pos < w := hl
  unfold findHwy find
  by_cases h0 : first.pos ≠ 0
  · rw [if_pos h0, if_pos h0]
    rw [M_bind_apply, M_bind_apply]
    cases hx : load first.base m with
    | error e => rfl
    | ok p =>
      obtain ⟨x, m1⟩ := p
      have : m1 = m := by
        unfold load at hx
        split at hx
        · cases hx; rfl
        · cases hx
      subst this
      dsimp only
      rw [M_bind_apply, M_bind_apply]
      cases hs : lift (S.shr x first.pos) m1 with
      | error e => rfl
      | ok p =>
        obtain ⟨sh, m2⟩ := p
        have : m2 = m1 := by
          unfold lift at hs
          cases hss : S.shr x first.pos with
          | error e => rw [hss] at hs; cases hs
          | ok y => rw [hss] at hs; cases hs; rfl
        subst this
        dsimp only
        by_cases hc : first.base + (if last.pos = 0 then 1 else 0) = last.base
        · rw [if_pos hc, if_pos hc]
        · rw [if_neg hc, if_neg hc]
          by_cases hn : tzFor v sh + first.pos < w
          · rw [if_pos hn, if_pos hn]
          · rw [if_neg hn, if_neg hn]
            by_cases hb2 : first.base < last.base
            · have hw : 0 < w := by omega
              have ha : first.add ((w - first.pos : Nat) : Int) = ⟨first.base + 1, 0⟩ := by
                refine BitIter.addr_inj (b := ⟨first.base + 1, 0⟩) (BitIter.add_valid hw _ _) hw ?_
                rw [BitIter.add_addr hw]
                unfold BitIter.addr
                rw [Int.add_mul]; push_cast; omega
              rw [ha]
              exact hwyFindWords_eq hU v last m2 _ (by show first.base + 1 ≤ _; omega) (fun c h1 h2 => mapped_word_of_le hm (by
                have : first.base + 1 ≤ c := h1
                omega) h2 hf)
            · exfalso
              apply hc
              have e : first.base = last.base := by omega
              unfold BitIter.addr at hle
              rw [e] at hle
              rw [if_neg (by omega)]; omega
  · rw [if_neg h0, if_neg h0]
    exact hwyFindWords_eq hU v last m _ hb (fun c h1 h2 => mapped_word_of_le hm h1 h2 hf)

theorem transformHead_congr (S : ShiftSem w) (op : BitVec w → BitVec w) (first d : BitIter w) (total : Nat)
    (k k' : Nat × BitIter w × Int → M w α)
    (h : d.pos ≠ 0 → k (total - min total (w - d.pos), first.add (min total (w - d.pos) : Nat), d.base + 1) =
      k' (total - min total (w - d.pos), first.add (min total (w - d.pos) : Nat), d.base + 1))
    (h' : d.pos = 0 → k (total, first, d.base) = k' (total, first, d.base)) :
    (transformHead S op first d total >>= k) = (transformHead S op first d total >>= k') := by
  unfold transformHead
  by_cases h0 : d.pos ≠ 0
  · rw [if_pos h0]
    simp only [bind_assoc, pure_bind]
    rw [h h0]
  · rw [if_neg h0]
    simp only [pure_bind]
    exact h' (by omega)

theorem transformNotHwy_eq (S : ShiftSem w) {U : Simd} (hU : U.Ok) {first last d : BitIter w} (hl : last.Valid)
    (hd : d.Valid) (hle : first.addr ≤ last.addr) (hov : d.addr ≤ first.addr ∨ last.addr ≤ d.addr) :
    transformNotHwy S U first last d = transform S (~~~ ·) first last d := by
  have hd' : d.pos < w := hd
  have hl' : last.pos < w := hl
  have hw : 0 < w := by omega
  unfold transformNotHwy transform
  rw [assertViable_pure hle, distance_pure hle]
  simp only [pure_bind]
  by_cases hb : first.beq last = true
  · rw [if_pos hb, if_pos hb]
  · rw [if_neg hb, if_neg hb]
    have key : ∀ (first' : BitIter w) (it : Int), first'.addr ≤ last.addr → (it * w ≤ first'.addr ∨ last.addr ≤ it * w) →
        first'.pos = 0 →
        (hwyNotWords U first'.base last.base it : M w _) = stdTransform first'.base last.base it (~~~ ·) := by
      intro first' it h1 h2 h3
      refine hwyNotWords_eq hU _ _ _ (base_le_of_addr hl h1) ?_
      rcases h2 with h2 | h2
      · left
        by_contra hc
        have := base_lt_mul (w := w) (a := first'.base) (b := it) (by omega)
        unfold BitIter.addr at h2
        omega
      · right
        by_contra hc
        have := base_lt_mul (w := w) (a := it) (b := last.base) (by omega)
        unfold BitIter.addr at h2
        omega
    apply transformHead_congr
    · intro h0
      dsimp only
      by_cases hr : (last.addr - first.addr).toNat - min (last.addr - first.addr).toNat (w - d.pos) > 0
      · rw [if_pos hr, if_pos hr]
        by_cases hc : (first.add (min (last.addr - first.addr).toNat (w - d.pos) : Nat)).pos = 0 ∧
            (last.addr - first.addr).toNat - min (last.addr - first.addr).toNat (w - d.pos) > w
        · rw [if_pos hc, if_pos hc]
          have ha := BitIter.add_addr hw first (min (last.addr - first.addr).toNat (w - d.pos) : Nat)
          have hda : d.addr = d.base * w + d.pos := rfl
          rw [key _ _ (by rw [ha]; omega) (by rw [ha, Int.add_mul]; omega) hc.1]
        · rw [if_neg hc, if_neg hc]
      · rw [if_neg hr, if_neg hr]
    · intro h0
      dsimp only
      by_cases hr : (last.addr - first.addr).toNat > 0
      · rw [if_pos hr, if_pos hr]
        by_cases hc : first.pos = 0 ∧ (last.addr - first.addr).toNat > w
        · rw [if_pos hc, if_pos hc]
          have hda : d.addr = d.base * w + d.pos := rfl
          rw [key _ _ hle (by omega) hc.1]
        · rw [if_neg hc, if_neg hc]
      · rw [if_neg hr, if_neg hr]

theorem shiftLeftMainHwy_eq (S : ShiftSem w) {U : Simd} (hU : U.Ok) {first middle last : BitIter w} (n : Int)
    (hmv : middle.Valid) (hl : last.Valid)
    (hfm : first.addr ≤ middle.addr) (hml : middle.addr ≤ last.addr) :
    shiftLeftMainHwy S U first middle last n = shiftLeftMain S first middle last n := by
  unfold shiftLeftMainHwy shiftLeftMain
  by_cases hc : middle.base = last.base
  · rw [if_pos hc, if_pos hc]
  · rw [if_neg hc, if_neg hc]
    by_cases h0 : middle.pos = 0
    · simp only [if_pos h0]
    · simp only [if_neg h0]
      rw [hwyShlWords_eq S hU (by omega) hmv last _ _ (base_le_of_addr hmv hfm) (base_le_of_addr hl hml)]

theorem shiftLeftAlign_congr (S : ShiftSem w) (first middle : BitIter w) (d n : Int) (k k' : BitIter w × BitIter w → M w α)
    (h : k (first.add (min (d - n) ((w - first.pos : Nat) : Int)), middle.add (min (d - n) ((w - first.pos : Nat) : Int))) =
      k' (first.add (min (d - n) ((w - first.pos : Nat) : Int)), middle.add (min (d - n) ((w - first.pos : Nat) : Int)))) :
    (shiftLeftAlign S first middle d n >>= k) = (shiftLeftAlign S first middle d n >>= k') := by
  unfold shiftLeftAlign
  by_cases h0 : first.pos ≥ middle.pos
  · simp only [if_pos h0, bind_assoc, pure_bind, h]
  · simp only [if_neg h0, bind_assoc, pure_bind, h]

theorem shiftLeftHwy_eq (S : ShiftSem w) {U : Simd} (hU : U.Ok) {first last : BitIter w} (n : Int) (hf : first.Valid) (hl : last.Valid)
    (hle : first.addr ≤ last.addr) : shiftLeftHwy S U first last n = shiftLeft S first last n := by
  have hf' : first.pos < w := hf
  have hw : 0 < w := by omega
  unfold shiftLeftHwy shiftLeft
  rw [assertViable_pure hle, distance_pure hle]
  simp only [pure_bind]
  by_cases h0 : n ≤ 0
  · simp only [if_pos h0]
  simp only [if_neg h0]
  by_cases h1 : n ≥ last.addr - first.addr
  · simp only [if_pos h1]
  simp only [if_neg h1]
  by_cases h2 : first.base + (if last.pos = 0 then 1 else 0) = last.base
  · simp only [if_pos h2]
  simp only [if_neg h2]
  by_cases h3 : last.addr - first.addr - n ≤ w
  · simp only [if_pos h3]
  simp only [if_neg h3]
  have hma := BitIter.add_addr hw first n
  congr 1; funext _
  have hcore : (if first.pos ≠ 0 then (do
        let (first, middle) ← shiftLeftAlign S first (first.add n) (last.addr - first.addr) n
        shiftLeftMainHwy S U first middle last n) else shiftLeftMainHwy S U first (first.add n) last n) =
      (if first.pos ≠ 0 then (do
        let (first, middle) ← shiftLeftAlign S first (first.add n) (last.addr - first.addr) n
        shiftLeftMain S first middle last n) else shiftLeftMain S first (first.add n) last n) := by
    by_cases h4 : first.pos ≠ 0
    · rw [if_pos h4, if_pos h4]
      apply shiftLeftAlign_congr
      dsimp only
      apply shiftLeftMainHwy_eq S hU n (BitIter.add_valid hw _ _) hl
      · rw [BitIter.add_addr hw, BitIter.add_addr hw, hma]; omega
      · rw [BitIter.add_addr hw, hma]; omega
    · rw [if_neg h4, if_neg h4]
      exact shiftLeftMainHwy_eq S hU n (BitIter.add_valid hw _ _) hl (by omega) (by omega)
  rw [hcore]

theorem shiftRightWordsHwy_eq (S : ShiftSem w) {U : Simd} (hU : U.Ok) {first middle last : BitIter w} {o : Nat} (h0 : 0 < o) (ho : o < w)
    (hfm : first.base < middle.base) (hml : middle.base < last.base) :
    shiftRightWordsHwy S U first middle last o = shiftRightWords S first middle last o := by
  unfold shiftRightWordsHwy shiftRightWords
  rw [hwyShrLoop_eq S hU h0 ho _ _ _ hml hfm]

theorem shiftRightMainHwy_eq (S : ShiftSem w) {U : Simd} (hU : U.Ok) {first middle last : BitIter w} (n : Int)
    (hmv : middle.Valid) (hfm : first.addr ≤ middle.addr) (hml : middle.addr < last.addr) (hl0 : last.pos = 0) :
    shiftRightMainHwy S U first middle last n = shiftRightMain S first middle last n := by
  have hmv' : middle.pos < w := hmv
  unfold shiftRightMainHwy shiftRightMain
  rw [distance_pure hfm]
  by_cases h0 : middle.pos = 0
  · simp only [if_pos h0]
  · simp only [if_neg h0, pure_bind]
    by_cases hd : middle.addr - first.addr ≥ w
    · simp only [if_pos hd]
      rw [shiftRightWordsHwy_eq S hU (by omega) hmv]
      · by_contra hc
        have := base_le_mul (w := w) (a := middle.base) (b := first.base) (by omega)
        unfold BitIter.addr at hd
        omega
      · by_contra hc
        have := base_le_mul (w := w) (a := last.base) (b := middle.base) (by omega)
        unfold BitIter.addr at hml
        omega
    · simp only [if_neg hd]

theorem shiftRightHwy_eq (S : ShiftSem w) {U : Simd} (hU : U.Ok) {first last : BitIter w} (n : Int) (hf : first.Valid) (hl : last.Valid)
    (hle : first.addr ≤ last.addr) : shiftRightHwy S U first last n = shiftRight S first last n := by
  have hl' : last.pos < w := hl
  have hw : 0 < w := by omega
  unfold shiftRightHwy shiftRight
  rw [distance_pure hle]
  simp only [pure_bind]
  by_cases h0 : n ≤ 0
  · simp only [if_pos h0]
  simp only [if_neg h0]
  by_cases h1 : n ≥ last.addr - first.addr
  · simp only [if_pos h1]
  simp only [if_neg h1]
  by_cases h2 : first.base + (if last.pos = 0 then 1 else 0) = last.base
  · simp only [if_pos h2]
  simp only [if_neg h2]
  have hma := BitIter.sub_addr hw last n
  rw [distance_pure (by omega : first.addr ≤ (last.sub n).addr), hma]
  by_cases h3 : last.pos ≠ 0
  · simp only [if_pos h3, pure_bind]
    congr 1; funext x; congr 1; funext _
    generalize hb : min last.pos (last.addr - n - first.addr).toNat = b
    by_cases h4 : ((last.sub n).sub (b : Int)).beq first = true
    · simp only [if_pos h4]
    · simp only [if_neg h4]
      rw [BitIter.beq_iff (BitIter.sub_valid hw _ _) hf, BitIter.sub_addr hw, hma] at h4
      have hb' : b = last.pos := by omega
      refine shiftRightMainHwy_eq S hU n (BitIter.sub_valid hw _ _) ?_ ?_ ?_
      · rw [BitIter.sub_addr hw, hma]; omega
      · rw [BitIter.sub_addr hw, BitIter.sub_addr hw, BitIter.sub_addr hw]; omega
      · have : last.sub (b : Int) = ⟨last.base, 0⟩ := by
          refine BitIter.addr_inj (b := ⟨last.base, 0⟩) (BitIter.sub_valid hw _ _) hw ?_
          rw [BitIter.sub_addr hw]
          unfold BitIter.addr
          push_cast; omega
        rw [this]
  · simp only [if_neg h3]
    exact shiftRightMainHwy_eq S hU n (BitIter.sub_valid hw _ _) (by omega) (by omega) (by omega)

theorem reverseHwy_eq (S : ShiftSem w) {U : Simd} (hU : U.Ok) {first last : BitIter w} (hl : last.Valid)
    (hle : first.addr ≤ last.addr) : reverseHwy S U first last = reverse S first last := by
  have hl' : last.pos < w := hl
  have hw : 0 < w := by omega
  have hb := base_le_of_addr hl hle
  have key : ∀ (a b : Int) (n : Int), a ≤ b →
      shiftLeftHwy S U (BitIter.aligned a) (BitIter.aligned b) n = shiftLeft S (BitIter.aligned a) (BitIter.aligned b) n ∧
      shiftRightHwy S U (BitIter.aligned a) (BitIter.aligned b) n = shiftRight S (BitIter.aligned a) (BitIter.aligned b) n := by
    intro a b n h
    have := base_le_mul (w := w) h
    exact ⟨shiftLeftHwy_eq S hU n hw hw (by unfold BitIter.aligned BitIter.addr; push_cast; omega),
      shiftRightHwy_eq S hU n hw hw (by unfold BitIter.aligned BitIter.addr; push_cast; omega)⟩
  unfold reverseHwy reverse
  have e : ∀ gap, reverseShiftHwy S U first.base last.base (last.base + (if last.pos = 0 then 0 else 1)) first.pos gap =
      reverseShift S first.base last.base (last.base + (if last.pos = 0 then 0 else 1)) first.pos gap := by
    intro gap
    unfold reverseShiftHwy reverseShift
    rw [(key first.base (last.base + 1) _ (by omega)).1,
      (key first.base (last.base + (if last.pos = 0 then 0 else 1)) _ (by split <;> omega)).2]
  simp only [e]

end BitLib
