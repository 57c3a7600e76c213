import Verif.Lemmas.Cpp20
/-
C96 for `rotate`: a C++20 build computes the same, unless the rotation ends in a right shift by one word from inside a word.
-/
namespace BitLib
variable {w : Nat}

/-- A library that complements the words it vacates. -/
def Vacated.flip : Vacated w where
  left _ _ _ m i := ~~~ (m i).getD 0
  right _ _ _ m i := ~~~ (m i).getD 0

theorem rotated_unique (hw : 0 < w) {m m1 m2 : Mem w} {a b c : Int} (h1 : Rotated m m1 a b c) (h2 : Rotated m m2 a b c) : m1 = m2 :=
  mem_ext_bitAt hw fun i => by rw [h1 i, h2 i]

/-- The left shift and the rewriting of the saved bits, in both builds. -/
theorem rotL20_eq (J : Vacated w) (S : ShiftSem w) {first last : BitIter w} {k : Nat} {m : Mem w}
    (hf : first.Valid) (hl : last.Valid) (hm : Mapped m first.addr last.addr)
    (hk0 : 0 < k) (hkw : k ≤ w) (hkd : k < last.addr - first.addr)
    (hfull : ¬ (first.pos = 0 ∧ last.addr - first.addr = w)) :
    (do
      let x ← getWord S first k
      let newLast ← shiftLeft20 J S first last k
      writeWord S x newLast k
      pure newLast) m =
    (do
      let x ← getWord S first k
      let newLast ← shiftLeft S first last k
      writeWord S x newLast k
      pure newLast) m := by
  have hf' : first.pos < w := hf
  have hw : 0 < w := by omega
  obtain ⟨r1, m1, e1, v1, a1, h1⟩ := wp_rotL20 J S (Q := fun r m' => r.Valid ∧ r.addr = last.addr - k ∧
    Rotated m m' first.addr (first.addr + k) last.addr) hf hl hm hk0 hkw hkd hfull (fun _ _ x y z => ⟨x, y, z⟩)
  obtain ⟨r2, m2, e2, v2, a2, h2⟩ := wp_rotL S (Q := fun r m' => r.Valid ∧ r.addr = last.addr - k ∧
    Rotated m m' first.addr (first.addr + k) last.addr) hf hl hm hk0 hkw hkd hfull (fun _ _ x y z => ⟨x, y, z⟩)
  rw [e1, e2, rotated_unique hw h1 h2, BitIter.addr_inj v1 v2 (by omega)]

/-- The right shift and the rewriting of the saved bits, in both builds. -/
theorem rotR20_cases (S : ShiftSem w) {first last from_ : BitIter w} {k : Nat} {m : Mem w}
    (hf : first.Valid) (hl : last.Valid) (hv : from_.Valid) (hm : Mapped m first.addr last.addr)
    (hfr : from_.addr = last.addr - k)
    (hk0 : 0 < k) (hkw : k ≤ w) (hkd : k < last.addr - first.addr)
    (hfull : ¬ (first.pos = 0 ∧ last.addr - first.addr = w)) :
    ∃ m1, (do
      let x ← getWord S from_ k
      let newLast ← shiftRight S first last k
      writeWord S x first k
      pure newLast) m = .ok (first.add k, m1) ∧
    ((first.pos = 0 ∨ ¬ WordMove w first.addr last.addr k) → ∀ J, (do
      let x ← getWord S from_ k
      let newLast ← shiftRight20 J S first last k
      writeWord S x first k
      pure newLast) m = .ok (first.add k, m1)) ∧
    (first.pos ≠ 0 → WordMove w first.addr last.addr k → ∃ m2, (do
      let x ← getWord S from_ k
      let newLast ← shiftRight20 Vacated.flip S first last k
      writeWord S x first k
      pure newLast) m = .ok (first.add k, m2) ∧ bitAt m2 (first.base * w) ≠ bitAt m1 (first.base * w)) := by
  have hf' : first.pos < w := hf
  have hw : 0 < w := by omega
  have hfa : first.addr = first.base * w + first.pos := rfl
  obtain ⟨r1, m1, e1, rfl, h1⟩ := wp_rotR S (Q := fun r m' => r = first.add k ∧
    Rotated m m' first.addr (last.addr - k) last.addr) hf hl hv hm hfr hk0 hkw hkd hfull (fun _ z => ⟨rfl, z⟩)
  refine ⟨m1, e1, ?_, ?_⟩
  · intro hq J
    refine wp_rotR20 J S (Q := fun r m' => r = first.add k ∧ m' = m1) hf hl hv hm hfr hk0 hkw hkd hfull ?_ |>.elim ?_
    · intro m' m0 _ _ hb
      refine ⟨rfl, mem_ext_bitAt hw fun i => ?_⟩
      rw [hb i, h1 i, if_neg (by rintro ⟨h4, h5, h6⟩; rcases hq with hq | hq; · omega
                                 exact hq h4)]
      split_ifs <;> first | rfl | (exfalso; omega) | (congr 1; omega)
    · rintro r ⟨m', e, rfl, rfl⟩
      exact e
  · intro hp hq
    refine wp_rotR20 Vacated.flip S (Q := fun r m' => r = first.add k ∧ bitAt m' (first.base * w) ≠ bitAt m1 (first.base * w))
      hf hl hv hm hfr hk0 hkw hkd hfull ?_ |>.elim ?_
    · intro m' m0 hs0 hb0 hb
      refine ⟨rfl, ?_⟩
      have hpos : 0 < (k : Int) / w := by
        have h2 := hq.scale
        by_contra hc
        have := Int.mul_le_mul_of_nonneg_right (show (k : Int) / (w : Int) ≤ 0 by omega) (show (0 : Int) ≤ w by omega)
        omega
      have hd : first.base * (w : Int) / w = first.base := by
        have := mul_add_ediv hw (b := first.base) (r := 0) (by omega) (by omega)
        rwa [Int.add_zero] at this
      have hmod : first.base * (w : Int) % w = 0 := Int.mul_emod_left _ _
      have hmap : ∃ y, m0 first.base = some y := by
        have h2 := hs0 first.addr
        rw [hm first.addr (by omega) (by omega)] at h2
        have h3 : first.addr / (w : Int) = first.base := by rw [hfa, mul_add_ediv hw (by omega) (by omega)]
        unfold bitAt at h2
        rw [h3] at h2
        cases hc : m0 first.base with
        | none => rw [hc] at h2; cases h2
        | some y => exact ⟨y, rfl⟩
      obtain ⟨y, hy⟩ := hmap
      have hbit : bitAt m (first.base * w) = some (y.getLsbD 0) := by
        rw [← hb0 _ (.inl (by omega))]
        unfold bitAt
        rw [hd, hmod, hy]; rfl
      rw [h1, if_neg (by omega), if_neg (by omega), hb, if_pos ⟨hq, by omega, by omega⟩, hbit]
      unfold scribbled
      rw [bitAt_scribble, hd, if_pos (by omega), hmod, hy]
      simp only [Option.map_some]
      show some ((~~~ (m0 first.base).getD 0).getLsbD 0) ≠ _
      rw [hy]
      simp [hw]
    · rintro r ⟨m', e, rfl, hne⟩
      exact ⟨m', e, hne⟩

/-- One round of the loop when the left part is the shorter one, in both builds. -/
theorem round_fwd (S : ShiftSem w) {p : BitIter w} {k n : Int} {m : Mem w}
    (hp : p.Valid) (hkw : (w : Int) < k) (hlt : k < n - k) (hm : Mapped m p.addr (p.addr + n)) :
    ∃ (m2 : Mem w) (p2 : BitIter w), p2.Valid ∧ p2.addr = p.addr + (n - k) ∧ SameMapped m m2 ∧
      (∀ fuel, rotLoop S (fuel + 1) p k n m = if n % k = 0 then .ok ((), m2) else rotLoop S fuel p2 (k - n % k) k m2) ∧
      ∀ J fuel, rotLoop20 J S (fuel + 1) p k n m = if n % k = 0 then .ok ((), m2) else rotLoop20 J S fuel p2 (k - n % k) k m2 := by
  have hw : 0 < w := Nat.lt_of_le_of_lt (Nat.zero_le _) hp
  have h0 : 0 < k := by omega
  have hpk := BitIter.add_addr hw p k
  obtain ⟨fs, hfs⟩ : ∃ fs, (Int.tdiv (n - k) k) % 2 ^ 32 = fs := ⟨_, rfl⟩
  have hfs0 : 0 ≤ fs := by rw [← hfs]; exact Int.emod_nonneg _ (by decide)
  have hfsk : fs * k ≤ n - k := by
    have h1 : fs ≤ Int.tdiv (n - k) k := by
      rw [← hfs]
      have h0 : 0 ≤ Int.tdiv (n - k) k := Int.tdiv_nonneg (by omega) (by omega)
      omega
    have h2 : fs * k ≤ Int.tdiv (n - k) k * k := Int.mul_le_mul_of_nonneg_right h1 (by omega)
    have h3 := Int.tmod_add_tdiv_mul (n - k) k
    have h4 : 0 ≤ Int.tmod (n - k) k := Int.tmod_nonneg _ (by omega)
    omega
  have hfsk0 : 0 ≤ fs * k := Int.mul_nonneg hfs0 (by omega)
  have hfst : (fs.toNat : Int) = fs := by omega
  obtain ⟨⟨p1, q1⟩, m1, e1, hp1, hq1, hpa, hqa, h1⟩ := wp_rotFwdSwaps S h0 fs.toNat (m := m)
    (Q := fun r m' => r.1.Valid ∧ r.2.Valid ∧ r.1.addr = p.addr + fs.toNat * k ∧ r.2.addr = (p.add k).addr + fs.toNat * k ∧
      SwapSeq m m' p.addr (p.addr + k) (fs.toNat * k)) hp (BitIter.add_valid hw p k) hpk
    (by rw [hfst]; exact hm.sub (by omega) (by omega)) (fun _ _ _ a b c d e => ⟨a, b, c, d, e⟩)
  dsimp only at hp1 hq1 hpa hqa
  rw [hfst] at hpa hqa h1
  have sm1 := h1.sameMapped (hm.sub (by omega) (by omega)) (hm.sub (by omega) (by omega))
  obtain ⟨rem, hrem⟩ : ∃ rem, n - k - fs * k = rem := ⟨_, rfl⟩
  have hp1r := BitIter.add_addr hw p1 rem
  obtain ⟨r2, m2, e2, h2⟩ := wp_swapRanges S (first1 := p1) (last1 := p1.add rem) (first2 := q1) (m := m1)
    (Q := fun _ m' => SwapSeq m1 m' p1.addr q1.addr ((p1.add rem).addr - p1.addr)) hp1 (BitIter.add_valid hw _ _) hq1 (by omega)
    ((sm1.mapped hm).sub (by omega) (by omega)) ((sm1.mapped hm).sub (by omega) (by omega)) (by omega) (fun _ h => h)
  have sm2 := h2.sameMapped ((sm1.mapped hm).sub (by omega) (by omega)) ((sm1.mapped hm).sub (by omega) (by omega))
  refine ⟨m2, p1.add rem, BitIter.add_valid hw _ _, by omega, fun i => by rw [sm2 i, sm1 i], ?_, ?_⟩
  · intro fuel
    conv_lhs => unfold rotLoop
    rw [if_pos hlt, if_neg (by omega)]
    dsimp only
    rw [hfs, hrem, ok_bind e1]
    dsimp only
    rw [ok_bind e2, show Int.tmod n k = n % k from Int.tmod_eq_emod_of_nonneg (by omega)]
    split_ifs <;> rfl
  · intro J fuel
    conv_lhs => unfold rotLoop20
    rw [if_pos hlt, if_neg (by omega)]
    dsimp only
    rw [hfs, hrem, ok_bind e1]
    dsimp only
    rw [ok_bind e2, show Int.tmod n k = n % k from Int.tmod_eq_emod_of_nonneg (by omega)]
    split_ifs <;> rfl

/-- One round of the loop when the right part is not the longer one, in both builds. -/
theorem round_bwd (S : ShiftSem w) {p : BitIter w} {k k2 n : Int} {m : Mem w}
    (hp : p.Valid) (hk2 : n - k = k2) (hkw : (w : Int) < k2) (hlt : k2 ≤ k) (hov : k < 2 ^ 32 * k2) (hm : Mapped m p.addr (p.addr + n)) :
    ∃ (m2 : Mem w) (p2 : BitIter w), p2.Valid ∧ p2.addr = p.addr ∧ SameMapped m m2 ∧
      (∀ fuel, rotLoop S (fuel + 1) p k n m = if k % k2 = 0 then .ok ((), m2) else rotLoop S fuel p2 (k % k2) k2 m2) ∧
      ∀ J fuel, rotLoop20 J S (fuel + 1) p k n m = if k % k2 = 0 then .ok ((), m2) else rotLoop20 J S fuel p2 (k % k2) k2 m2 := by
  have hw : 0 < w := Nat.lt_of_le_of_lt (Nat.zero_le _) hp
  have hpn := BitIter.add_addr hw p n
  obtain rfl : k = n - k2 := by omega
  have hpk := BitIter.sub_addr hw (p.add n) k2
  have htd : Int.tdiv (n - k2) k2 = (n - k2) / k2 := Int.tdiv_eq_ediv_of_nonneg (by omega)
  have hq0 : 0 ≤ (n - k2) / k2 := Int.ediv_nonneg (by omega) (by omega)
  have hqk := Int.emod_add_mul_ediv (n - k2) k2
  have hr0 : 0 ≤ (n - k2) % k2 := Int.emod_nonneg _ (by omega)
  have hrk : (n - k2) % k2 < k2 := Int.emod_lt_of_pos _ (by omega)
  have hqlt : (n - k2) / k2 < 2 ^ 32 := by
    by_contra hc
    have h1 : k2 * (2 ^ 32 : Int) ≤ k2 * ((n - k2) / k2) := Int.mul_le_mul_of_nonneg_left (by omega) (by omega)
    omega
  have hfs : (Int.tdiv (n - k2) k2) % 2 ^ 32 = (n - k2) / k2 := by
    rw [htd]; exact Int.emod_eq_of_lt hq0 hqlt
  have htm : Int.tmod n k2 = (n - k2) % k2 := by
    rw [Int.tmod_eq_emod_of_nonneg (by omega), ← Int.sub_emod_right]
  generalize (n - k2) / k2 = fs at hq0 hqk hqlt hfs
  have hcomm : k2 * fs = fs * k2 := Int.mul_comm _ _
  have hfst : (fs.toNat : Int) = fs := by omega
  generalize (n - k2) % k2 = rem at *
  have hrem : n - k2 - fs * k2 = rem := by omega
  have hfsk0 : 0 ≤ fs * k2 := Int.mul_nonneg hq0 (by omega)
  obtain ⟨⟨p1, q1⟩, m1, e1, hp1, hq1, hpa, hqa, sm1⟩ := wp_rotBwdSwaps S (k := k2) (e := p.addr + n) (m0 := m) (m := m) (by omega) fs.toNat
    (Q := fun r m' => r.1.Valid ∧ r.2.Valid ∧ r.1.addr = ((p.add n).sub k2).addr - fs.toNat * k2 ∧
      r.2.addr = (p.add n).addr - fs.toNat * k2 ∧ SameMapped m m')
    (BitIter.sub_valid hw _ _) (BitIter.add_valid hw _ _) (by omega) (by omega) (by rw [hfst]; exact hm.sub (by omega) (by omega))
    (by intro i; split_ifs <;> first | rfl | (exfalso; omega) | (congr 1; omega)) (fun _ _ _ a b c d _ f => ⟨a, b, c, d, f⟩)
  dsimp only at hp1 hq1 hpa hqa
  rw [hfst] at hpa hqa
  have hp1r := BitIter.sub_addr hw p1 rem
  have hq1r := BitIter.sub_addr hw q1 rem
  have hp1e := BitIter.add_addr hw (p1.sub rem) rem
  obtain ⟨r2, m2, e2, h2⟩ := wp_swapRanges S (first1 := p1.sub rem) (last1 := (p1.sub rem).add rem) (first2 := q1.sub rem) (m := m1)
    (Q := fun _ m' => SwapSeq m1 m' (p1.sub rem).addr (q1.sub rem).addr (((p1.sub rem).add rem).addr - (p1.sub rem).addr))
    (BitIter.sub_valid hw _ _) (BitIter.add_valid hw _ _) (BitIter.sub_valid hw _ _) (by omega)
    ((sm1.mapped hm).sub (by omega) (by omega)) ((sm1.mapped hm).sub (by omega) (by omega)) (by omega) (fun _ h => h)
  have sm2 : SameMapped m1 m2 := h2.sameMapped ((sm1.mapped hm).sub (by omega) (by omega))
    ((sm1.mapped hm).sub (by omega) (by omega))
  refine ⟨m2, p1.sub rem, BitIter.sub_valid hw _ _, by omega, fun i => by rw [sm2 i, sm1 i], ?_, ?_⟩
  · intro fuel
    conv_lhs => unfold rotLoop
    rw [if_neg (by omega)]
    dsimp only
    rw [hk2, if_neg (by omega), hfs, hrem, ok_bind e1]
    dsimp only
    rw [ok_bind e2, htm]
    split_ifs <;> rfl
  · intro J fuel
    conv_lhs => unfold rotLoop20
    rw [if_neg (by omega)]
    dsimp only
    rw [hk2, if_neg (by omega), hfs, hrem, ok_bind e1]
    dsimp only
    rw [ok_bind e2, htm]
    split_ifs <;> rfl

/-! ### The loop -/

theorem bind_congr_run {x y : M w α} {f : α → M w β} {m : Mem w} (h : x m = y m) : (x >>= f) m = (y >>= f) m := by
  show Except.bind (x m) _ = Except.bind (y m) _
  rw [h]

/-- A right shift by at most one word moves whole words only if it is by one word. -/
theorem wordMove_small {a b : Int} {k : Nat} (hw : 0 < w) (hk0 : 0 < k) (hkw : k ≤ w) (hd : (w : Int) ≤ b - a - k) :
    WordMove w a b k ↔ k = w := by
  constructor
  · intro h
    have h1 := h.1
    have h2 : k % w = 0 := by exact_mod_cast h1
    rcases Nat.lt_or_ge k w with h3 | h3
    · rw [Nat.mod_eq_of_lt h3] at h2; omega
    · omega
  · intro hk
    rw [hk] at hd ⊢
    refine ⟨Int.emod_self, ?_⟩
    have h1 : a / (w : Int) + 1 = (a + w) / w := by rw [Int.add_ediv_of_dvd_right (Int.dvd_refl _), Int.ediv_self (by omega)]
    have h2 : (a + w) / (w : Int) ≤ (b - w) / w := Int.ediv_le_ediv (by omega) (by omega)
    omega

theorem pos_eq (hw : 0 < w) {p : BitIter w} (hp : p.Valid) : (p.pos : Int) = p.addr % w := by
  have hp' : p.pos < w := hp
  have h1 : p.addr / (w : Int) = p.base := mul_add_ediv hw (by omega) (by omega)
  have h2 := Int.emod_add_mul_ediv p.addr w
  have h3 : p.addr = p.base * w + p.pos := rfl
  rw [h1, Int.mul_comm] at h2
  omega

theorem RotSpoils.right_pos (hw : 0 < w) {a left right : Int} (h : RotSpoils w a left right) : 0 < left ∧ 0 < right := by
  cases h with
  | here h1 h2 => omega
  | left h1 h2 h3 => omega
  | right h1 h2 h3 => omega

theorem RotSpoils.small {a left right : Int} (hr : right ≤ w) (hl : right ≤ left) :
    RotSpoils w a left right ↔ right = w ∧ a % w ≠ 0 := by
  constructor
  · intro h
    cases h with
    | here h1 h2 => exact ⟨rfl, h2⟩
    | left h1 h2 h3 => omega
    | right h1 h2 h3 => omega
  · rintro ⟨rfl, h⟩
    exact .here hl h

theorem RotSpoils.short {a left right : Int} (hl : left ≤ w) (h : left < right) : ¬ RotSpoils w a left right := by
  intro h
  cases h with
  | here h1 h2 => omega
  | left h1 h2 h3 => omega
  | right h1 h2 h3 => omega

theorem RotSpoils.fwd {a left right : Int} (hl : w < left) (h : left < right) :
    RotSpoils w a left right ↔ RotSpoils w (a + right) (left - right % left) (right % left) := by
  constructor
  · intro h
    cases h with
    | here h1 h2 => omega
    | left h1 h2 h3 => exact h3
    | right h1 h2 h3 => omega
  · exact .left hl h

theorem RotSpoils.bwd {a left right : Int} (hl : w < right) (h : right ≤ left) :
    RotSpoils w a left right ↔ RotSpoils w a (left % right) (right - left % right) := by
  constructor
  · intro h
    cases h with
    | here h1 h2 => omega
    | left h1 h2 h3 => omega
    | right h1 h2 h3 => exact h3
  · exact .right hl h

/-- The two builds agree on the loop for every library, or a library that complements the vacated words ends in another state. -/
theorem rotLoop20_cases (S : ShiftSem w) :
    ∀ (fuel : Nat) {p : BitIter w} {k n : Int} {m : Mem w},
    p.Valid → n < fuel → 0 < k → k < n → (w : Int) < n → RotFits w k (n - k) → Mapped m p.addr (p.addr + n) →
    (¬ RotSpoils w p.addr k (n - k) → ∀ J, rotLoop20 J S fuel p k n m = rotLoop S fuel p k n m) ∧
    (RotSpoils w p.addr k (n - k) → ∃ m1 m2, rotLoop S fuel p k n m = .ok ((), m1) ∧ rotLoop20 Vacated.flip S fuel p k n m = .ok ((), m2) ∧ m2 ≠ m1) := by
  intro fuel
  induction fuel with
  | zero => intro p k n m hp hf h0 hk; omega
  | succ fuel ih =>
    intro p k n m hp hf h0 hkn hwn hlim hm
    have hw : 0 < w := Nat.lt_of_le_of_lt (Nat.zero_le _) hp
    have hpn := BitIter.add_addr hw p n
    by_cases hlt : k < n - k
    · by_cases hkw : k ≤ w
      · have hno := RotSpoils.short (a := p.addr) hkw hlt
        refine ⟨fun _ J => ?_, fun h => absurd h hno⟩
        unfold rotLoop rotLoop20
        rw [if_pos hlt, if_pos hkw, if_pos hlt, if_pos hkw]
        obtain ⟨k', rfl⟩ : ∃ k' : Nat, k = k' := ⟨k.toNat, by omega⟩
        rw [Int.toNat_natCast]
        have h := bind_congr_run (f := fun _ => pure ()) (rotL20_eq J S (k := k') (m := m) hp (BitIter.add_valid hw p n) (by rwa [hpn])
          (by omega) (by omega) (by omega) (by omega))
        simpa only [bind_assoc, pure_bind, bind_pure_unit, bind_pure] using h
      · obtain ⟨m2, p2, hp2, hp2a, sm2, e1, e2⟩ := round_fwd S hp (by omega) hlt hm
        rw [e1, RotSpoils.fwd (by omega) hlt, show (n - k) % k = n % k from Int.sub_emod_right _ _]
        have hr0 : 0 ≤ n % k := Int.emod_nonneg _ (by omega)
        have hrk : n % k < k := Int.emod_lt_of_pos _ (by omega)
        by_cases hz : n % k = 0
        · refine ⟨fun _ J => by rw [e2, if_pos hz, if_pos hz], fun h => ?_⟩
          have := h.right_pos hw
          omega
        · simp only [e2, if_neg hz]
          have hsub : RotFits w (k - n % k) (k - (k - n % k)) := by
            intro hc
            refine hlim (.left (by omega) hlt ?_)
            rwa [show (n - k) % k = n % k from Int.sub_emod_right _ _, show n % k = k - (k - n % k) by omega, show k - (k - (k - n % k)) = k - n % k by omega]
          have := ih (m := m2) hp2 (by omega) (by omega) (by omega) (by omega) hsub ((sm2.mapped hm).sub (by omega) (by omega))
          rwa [hp2a, show k - (k - n % k) = n % k by omega] at this
    · generalize hk2 : n - k = k2 at hlim
      by_cases hkw : k2 ≤ w
      · obtain ⟨k', rfl⟩ : ∃ k' : Nat, k2 = k' := ⟨k2.toNat, by omega⟩
        have hpk := BitIter.sub_addr hw (p.add n) k'
        obtain ⟨m1, e1, e2, e3⟩ := rotR20_cases S (k := k') (m := m) (from_ := (p.add n).sub k') hp
          (BitIter.add_valid hw p n) (BitIter.sub_valid hw _ _) (by rwa [hpn]) hpk (by omega) (by omega) (by omega) (by omega)
        have hpos := pos_eq hw hp
        have hiff : p.pos ≠ 0 ∧ WordMove w p.addr (p.add n).addr k' ↔ RotSpoils w p.addr k k' := by
          rw [RotSpoils.small (by omega) (by omega)]
          constructor
          · rintro ⟨h1, h2⟩
            have h3 := h2.1
            have h4 : k' = w := by
              have h5 : k' % w = 0 := by exact_mod_cast h3
              rcases Nat.lt_or_ge k' w with h6 | h6
              · rw [Nat.mod_eq_of_lt h6] at h5; omega
              · omega
            exact ⟨by omega, by omega⟩
          · rintro ⟨h1, h2⟩
            exact ⟨by omega, (wordMove_small hw (by omega) (by omega) (by omega)).2 (by omega)⟩
        have hz1 : rotLoop S (fuel + 1) p k n m = .ok ((), m1) := by
          have h := ok_bind (f := fun _ => pure ()) e1
          unfold rotLoop
          rw [if_neg hlt]
          dsimp only
          rw [hk2, if_pos hkw, Int.toNat_natCast]
          simp only [bind_assoc, pure_bind, bind_pure_unit] at h ⊢
          exact h
        have hz2 : ∀ J m2, (do
            let x ← getWord S ((p.add n).sub k') k'
            let newLast ← shiftRight20 J S p (p.add n) k'
            writeWord S x p k'
            pure newLast) m = .ok (p.add k', m2) → rotLoop20 J S (fuel + 1) p k n m = .ok ((), m2) := by
          intro J m2 e
          have h := ok_bind (f := fun _ => pure ()) e
          unfold rotLoop20
          rw [if_neg hlt]
          dsimp only
          rw [hk2, if_pos hkw, Int.toNat_natCast]
          simp only [bind_assoc, pure_bind, bind_pure_unit] at h ⊢
          exact h
        rw [← hiff, hz1]
        constructor
        · intro hno J
          exact hz2 J m1 (e2 (by tauto) J)
        · rintro ⟨h1, h2⟩
          obtain ⟨m2, e4, hne⟩ := e3 h1 h2
          exact ⟨m1, m2, rfl, hz2 _ _ e4, fun h => hne (by rw [h])⟩
      · have hov : k < 2 ^ 32 * k2 := by
          by_contra hc
          exact hlim (.count (by omega) (by omega))
        obtain ⟨m2, p2, hp2, hp2a, sm2, e1, e2⟩ := round_bwd S hp hk2 (by omega) (by omega) hov hm
        rw [e1, RotSpoils.bwd (by omega) (by omega)]
        have hr0 : 0 ≤ k % k2 := Int.emod_nonneg _ (by omega)
        have hrk : k % k2 < k2 := Int.emod_lt_of_pos _ (by omega)
        by_cases hz : k % k2 = 0
        · refine ⟨fun _ J => by rw [e2, if_pos hz, if_pos hz], fun h => ?_⟩
          have := h.right_pos hw
          omega
        · simp only [e2, if_neg hz]
          have hsub : RotFits w (k % k2) (k2 - k % k2) := by
            intro hc
            refine hlim (.right (by omega) ?_ hc)
            rcases Int.lt_or_le k2 k with h | h
            · exact h
            · obtain rfl : k = k2 := by omega
              exact absurd Int.emod_self hz
          have := ih (m := m2) hp2 (by omega) (by omega) (by omega) (by omega) hsub ((sm2.mapped hm).sub (by omega) (by omega))
          rwa [hp2a] at this

/-- `rotate` in the two builds. -/
theorem rotate20_cases (S : ShiftSem w) {first nFirst last : BitIter w} {m : Mem w}
    (hf : first.Valid) (hn : nFirst.Valid) (hl : last.Valid)
    (h1 : first.addr ≤ nFirst.addr) (h2 : nFirst.addr < last.addr)
    (hlim : RotFits w (nFirst.addr - first.addr) (last.addr - nFirst.addr)) (hm : Mapped m first.addr last.addr) :
    (¬ (w < nFirst.addr - first.addr ∧ RotSpoils w first.addr (nFirst.addr - first.addr) (last.addr - nFirst.addr)) →
      ∀ J, rotate20 J S first nFirst last m = rotate S first nFirst last m) ∧
    ((w < nFirst.addr - first.addr ∧ RotSpoils w first.addr (nFirst.addr - first.addr) (last.addr - nFirst.addr)) →
      ∃ r m1 m2, rotate S first nFirst last m = .ok (r, m1) ∧ rotate20 Vacated.flip S first nFirst last m = .ok (r, m2) ∧ m2 ≠ m1) := by
  have hf' : first.pos < w := hf
  have hl' : last.pos < w := hl
  have hw : 0 < w := by omega
  have hfa : first.addr = first.base * w + first.pos := rfl
  have hla : last.addr = last.base * w + last.pos := rfl
  have eA : ∀ {a b : BitIter w}, a.addr ≤ b.addr → assertViable a b m = .ok ((), m) := by
    intro a b h
    have : wp (assertViable a b) m (fun _ m' => m' = m) := by rw [wp_assertViable]; exact ⟨h, rfl⟩
    obtain ⟨_, m', e, rfl⟩ := this
    exact e
  have eD : ∀ {a b : BitIter w}, a.addr ≤ b.addr → distance a b m = .ok (b.addr - a.addr, m) := by
    intro a b h
    have : wp (distance a b) m (fun d m' => d = b.addr - a.addr ∧ m' = m) := by rw [wp_distance]; exact ⟨h, rfl, rfl⟩
    obtain ⟨d, m', e, rfl, rfl⟩ := this
    exact e
  unfold rotate rotate20
  simp only [ok_bind (eA h1), ok_bind (eA h2.le), ok_bind (eA (h1.trans h2.le))]
  by_cases hbeq : first.beq nFirst
  · simp only [if_pos hbeq]
    rw [BitIter.beq_iff hf hn] at hbeq
    exact ⟨fun _ _ => trivial, fun h => by omega⟩
  · simp only [if_neg hbeq]
    rw [BitIter.beq_iff hf hn] at hbeq
    by_cases hsame : first.base + (if last.pos = 0 then 1 else 0) = last.base
    · simp only [if_pos hsame]
      refine ⟨fun _ _ => trivial, fun h => ?_⟩
      exfalso
      split_ifs at hsame
      · rw [← hsame, Int.add_mul] at hla; omega
      · rw [← hsame, Int.add_zero] at hla; omega
    · simp only [if_neg hsame]
      have hbb := base_le_of_addr hl (by omega : first.addr ≤ last.addr)
      have hnfull : ¬ (first.pos = 0 ∧ last.addr - first.addr = w) := by
        rintro ⟨hp, hd⟩
        have : last = ⟨first.base + 1, 0⟩ := by
          refine BitIter.addr_inj hl (b := ⟨first.base + 1, 0⟩) hw ?_
          show _ = (first.base + 1) * (w : Int) + (0 : Nat)
          rw [Int.add_mul]; omega
        rw [this] at hsame
        simp at hsame
      by_cases hw1 : isWithin w first nFirst
      · simp only [if_pos hw1, ok_bind (eD h1)]
        rw [isWithin_iff w first nFirst hf hn h1] at hw1
        refine ⟨fun _ J => ?_, fun h => by omega⟩
        obtain ⟨k, hk⟩ : ∃ k : Nat, nFirst.addr - first.addr = k := ⟨(nFirst.addr - first.addr).toNat, by omega⟩
        rw [hk, Int.toNat_natCast]
        exact rotL20_eq J S hf hl hm (by omega) (by omega) (by omega) hnfull
      · simp only [if_neg hw1]
        rw [isWithin_iff w first nFirst hf hn h1] at hw1
        by_cases hw2 : isWithin w nFirst last
        · simp only [if_pos hw2, ok_bind (eD h2.le)]
          rw [isWithin_iff w nFirst last hn hl (by omega)] at hw2
          obtain ⟨k, hk⟩ : ∃ k : Nat, last.addr - nFirst.addr = k := ⟨(last.addr - nFirst.addr).toNat, by omega⟩
          rw [hk, Int.toNat_natCast, RotSpoils.small (by omega) (by omega)]
          obtain ⟨m1, e1, e2, e3⟩ := rotR20_cases S (k := k) hf hl hn hm (by omega) (by omega) (by omega) (by omega) hnfull
          have hms := wordMove_small (a := first.addr) (b := last.addr) hw (k := k) (by omega) (by omega) (by omega)
          have hpos := pos_eq hw hf
          refine ⟨fun h J => ?_, fun h => ?_⟩
          · rw [e1]
            exact e2 (by rw [hms]; omega) J
          · obtain ⟨m2, e4, hne⟩ := e3 (by omega) (hms.2 (by omega))
            exact ⟨_, m1, m2, e1, e4, fun h => hne (by rw [h])⟩
        · simp only [if_neg hw2]
          rw [isWithin_iff w nFirst last hn hl (by omega)] at hw2
          unfold rotateViaRaw rotateViaRaw20
          dsimp only
          rw [BitIter.diff_eq, BitIter.diff_eq]
          by_cases hhalf : nFirst.addr - first.addr = last.addr - first.addr - (nFirst.addr - first.addr)
          · simp only [if_pos hhalf]
            refine ⟨fun _ _ => trivial, fun h => ?_⟩
            have h3 := h.2
            rw [show last.addr - nFirst.addr = nFirst.addr - first.addr by omega, RotSpoils.bwd (by omega) (by omega), Int.emod_self] at h3
            have := h3.right_pos hw
            omega
          · simp only [if_neg hhalf]
            have := rotLoop20_cases S ((last.addr - first.addr).toNat + 1) (p := first) (k := nFirst.addr - first.addr)
              (n := last.addr - first.addr) (m := m) hf (by omega) (by omega) (by omega) (by omega)
              (by rwa [show last.addr - first.addr - (nFirst.addr - first.addr) = last.addr - nFirst.addr by omega]) (hm.sub (by omega) (by omega))
            rw [show last.addr - first.addr - (nFirst.addr - first.addr) = last.addr - nFirst.addr by omega] at this
            refine ⟨fun h J => bind_congr_run (this.1 (fun h3 => h ⟨by omega, h3⟩) J), fun h => ?_⟩
            obtain ⟨m1, m2, e1, e2, hne⟩ := this.2 h.2
            exact ⟨_, m1, m2, ok_bind e1, ok_bind e2, hne⟩

end BitLib
