import Verif.Lemmas.RotateMore
/- The block-swap rotation goes wrong for every pair of part lengths satisfying `RotFails`, and two wrong rotations never cancel out. -/
namespace BitLib
variable {w : Nat}

theorem wp_both {α : Type} {x : M w α} {m : Mem w} {P Q : α → Mem w → Prop} (h1 : wp x m P) (h2 : wp x m Q) :
    wp x m fun a m' => P a m' ∧ Q a m' := by
  obtain ⟨a, m', e, hp⟩ := h1
  obtain ⟨a2, m2, e2, hq⟩ := h2
  rw [e] at e2
  cases e2
  exact ⟨a, m', e, hp, hq⟩

/-- The `n` bits from `a` on are `g 0`, `g 1`, .... -/
def Holds (m : Mem w) (a n : Int) (g : Int → Bool) : Prop := ∀ i, 0 ≤ i → i < n → bitAt m (a + i) = some (g i)

theorem Holds.mapped {m : Mem w} {a n : Int} {g : Int → Bool} (h : Holds m a n g) : Mapped m a (a + n) := by
  intro i h1 h2
  have := h (i - a) (by omega) (by omega)
  rw [show a + (i - a) = i by omega] at this
  rw [this]; rfl

theorem Holds.at {m : Mem w} {a n : Int} {g : Int → Bool} (h : Holds m a n g) (i : Int) (h1 : a ≤ i) (h2 : i < a + n) :
    bitAt m i = some (g (i - a)) := by
  rw [← h (i - a) (by omega) (by omega), show a + (i - a) = i by omega]

/-- The bits `m2` has after a round of the loop with the shorter part (`k` bits) on the left. -/
def RoundL (m m2 : Mem w) (a k n : Int) : Prop :=
  ∀ i, bitAt m2 i = if a ≤ i ∧ i < a + (n - k) then bitAt m (i + k)
      else if a + (n - k) ≤ i ∧ i < a + n then bitAt m (a + (i - a) % k) else bitAt m i

/-- The bits `m2` has after a round of the loop with the shorter part (`k2` bits) on the right. -/
def RoundR (m m2 : Mem w) (a k k2 n : Int) : Prop :=
  ∀ i, bitAt m2 i = if a + k2 ≤ i ∧ i < a + n then bitAt m (i - k2)
      else if a ≤ i ∧ i < a + k % k2 then bitAt m (i + (n - k % k2))
      else if a + k % k2 ≤ i ∧ i < a + k2 then bitAt m (i + (k - k % k2)) else bitAt m i

theorem emod_of_eq {x k j c : Int} (hk : 0 ≤ j) (hj : j < k) (h : x = j + k * c) : x % k = j := by
  rw [h, Int.add_mul_emod_self_left]
  exact Int.emod_eq_of_lt hk hj

/-- Contents of the range that leave the contents `g` for the next round. -/
theorem RoundL.pre {k n : Int} (h0 : 0 < k) (hlt : k < n - k) (g : Int → Bool) :
    ∃ g0 : Int → Bool, ∀ (m m2 : Mem w) (a : Int), RoundL m m2 a k n → Holds m a n g0 → Holds m2 (a + (n - k)) k g := by
  refine ⟨fun j => g ((j - (n - k)) % k), fun m m2 a hb hg i h1 h2 => ?_⟩
  have e0 : 0 ≤ (a + (n - k) + i - a) % k := Int.emod_nonneg _ (by omega)
  have e1 : (a + (n - k) + i - a) % k < k := Int.emod_lt_of_pos _ (by omega)
  rw [hb, if_neg (by omega), if_pos (by omega), hg _ e0 (by omega)]
  beta_reduce
  congr 2
  have e2 := Int.emod_add_mul_ediv (a + (n - k) + i - a) k
  exact emod_of_eq (c := -((a + (n - k) + i - a) / k)) h1 h2 (by rw [Int.mul_neg]; omega)

theorem RoundR.pre {k k2 n : Int} (hk2 : n - k = k2) (h0 : 0 < k2) (hlt : k2 ≤ k) (g : Int → Bool) :
    ∃ g0 : Int → Bool, ∀ (m m2 : Mem w) (a : Int), RoundR m m2 a k k2 n → Holds m a n g0 → Holds m2 a k2 g := by
  have hr0 : 0 ≤ k % k2 := Int.emod_nonneg _ (by omega)
  have hrk : k % k2 < k2 := Int.emod_lt_of_pos _ (by omega)
  refine ⟨fun j => if n - k % k2 ≤ j then g (j - (n - k % k2)) else g (j - (k - k % k2)), fun m m2 a hb hg i h1 h2 => ?_⟩
  rw [hb, if_neg (by omega)]
  by_cases hi : i < k % k2
  · rw [if_pos (by omega), show a + i + (n - k % k2) = a + (i + (n - k % k2)) by omega, hg _ (by omega) (by omega)]
    beta_reduce
    rw [if_pos (by omega)]
    congr 2; omega
  · rw [if_neg (by omega), if_pos (by omega), show a + i + (k - k % k2) = a + (i + (k - k % k2)) by omega, hg _ (by omega) (by omega)]
    beta_reduce
    rw [if_neg (by omega)]
    congr 2; omega

/-- The parts that remain after the round: the loop goes on unless the last block is complete. -/
theorem wp_rotLoop_stepL (S : ShiftSem w) {fuel : Nat} {p : BitIter w} {k r : Int} {m : Mem w} {Q : Unit → Mem w → Prop}
    (hp : p.Valid) (hkw : (w : Int) < k) (hlt : k < r) (hz : 0 < r % k) (hm : Mapped m p.addr (p.addr + (k + r)))
    (hQ : ∀ m2 : Mem w, SameMapped m m2 → RoundL m m2 p.addr k (k + r) →
      wp (rotLoop S fuel (p.add r) (k - r % k) (k - r % k + r % k)) m2 Q) :
    wp (rotLoop S (fuel + 1) p k (k + r)) m Q := by
  have hw : 0 < w := Nat.lt_of_le_of_lt (Nat.zero_le _) hp
  refine wp_rotLoop_fwd S hp hkw (by omega) hm ?_
  intro m2 p2 hp2 hpa sm hb
  have e : (k + r) % k = r % k := by rw [Int.add_comm, Int.add_emod_right]
  rw [e, if_neg (by omega), BitIter.addr_inj hp2 (BitIter.add_valid hw p r) (by rw [hpa, BitIter.add_addr hw]; omega)]
  have := hQ m2 sm hb
  rwa [show k - r % k + r % k = k by omega] at this

theorem wp_rotLoop_stepR (S : ShiftSem w) {fuel : Nat} {p : BitIter w} {k r : Int} {m : Mem w} {Q : Unit → Mem w → Prop}
    (hp : p.Valid) (hkw : (w : Int) < r) (hlt : r ≤ k) (hov : k < 2 ^ 32 * r) (hz : 0 < k % r) (hm : Mapped m p.addr (p.addr + (k + r)))
    (hQ : ∀ m2 : Mem w, SameMapped m m2 → RoundR m m2 p.addr k r (k + r) →
      wp (rotLoop S fuel p (k % r) (k % r + (r - k % r))) m2 Q) :
    wp (rotLoop S (fuel + 1) p k (k + r)) m Q := by
  refine wp_rotLoop_bwd S hp (by omega) hkw hlt hov hm ?_
  intro m2 p2 hp2 hpa sm hb
  rw [if_neg (by omega), BitIter.addr_inj hp2 hp hpa]
  have := hQ m2 sm hb
  rwa [show k % r + (r - k % r) = r by omega] at this

/-- With the shorter part on the left, the right part always arrives at its place. -/
theorem wp_rotLoop_leftPart (S : ShiftSem w) {fuel : Nat} {p : BitIter w} {k r : Int} {m : Mem w} {Q : Unit → Mem w → Prop}
    (hp : p.Valid) (hf : k + r < fuel) (hkw : (w : Int) < k) (hlt : k < r) (hm : Mapped m p.addr (p.addr + (k + r)))
    (hQ : ∀ m', OnlyIn m m' p.addr (p.addr + (k + r)) →
      (∀ i, 0 ≤ i → i < r → bitAt m' (p.addr + i) = bitAt m (p.addr + (i + k))) → Q () m') :
    wp (rotLoop S fuel p k (k + r)) m Q := by
  have hw : 0 < w := Nat.lt_of_le_of_lt (Nat.zero_le _) hp
  obtain ⟨fuel, rfl⟩ : ∃ f, fuel = f + 1 := ⟨fuel - 1, by omega⟩
  have hA : wp (rotLoop S (fuel + 1) p k (k + r)) m fun _ m' =>
      ∀ i, 0 ≤ i → i < r → bitAt m' (p.addr + i) = bitAt m (p.addr + (i + k)) := by
    refine wp_rotLoop_fwd S hp hkw (by omega) hm ?_
    intro m2 p2 hp2 hpa sm hb
    have hr0 : 0 ≤ (k + r) % k := Int.emod_nonneg _ (by omega)
    have hrk : (k + r) % k < k := Int.emod_lt_of_pos _ (by omega)
    by_cases hz : (k + r) % k = 0
    · rw [if_pos hz]
      intro i h1 h2
      rw [hb, if_pos (by omega)]; congr 1; omega
    · rw [if_neg hz]
      refine wp_rotLoop_frame S fuel hp2 (by omega) (by omega) (by omega) (by omega) ((sm.mapped hm).sub (by omega) (by omega)) ?_
      intro m3 h3 i h1 h2
      rw [h3.1 _ (by omega), hb, if_pos (by omega)]; congr 1; omega
  have hB := wp_rotLoop_frame S (fuel + 1) (Q := fun _ m' => OnlyIn m m' p.addr (p.addr + (k + r))) hp (by omega)
    (by omega : 0 < k) (by omega) (by omega) hm (fun m' h => h)
  exact wp_mono (wp_both hA hB) fun _ m' h => hQ m' h.2 h.1

/-- With the shorter part on the right and a block count that fits, the left part arrives at its place. -/
theorem wp_rotLoop_rightPart (S : ShiftSem w) {fuel : Nat} {p : BitIter w} {k r : Int} {m : Mem w} {Q : Unit → Mem w → Prop}
    (hp : p.Valid) (hf : k + r < fuel) (hkw : (w : Int) < r) (hlt : r ≤ k) (hov : k < 2 ^ 32 * r) (hm : Mapped m p.addr (p.addr + (k + r)))
    (hQ : ∀ m', OnlyIn m m' p.addr (p.addr + (k + r)) →
      (∀ i, r ≤ i → i < k + r → bitAt m' (p.addr + i) = bitAt m (p.addr + (i - r))) → Q () m') :
    wp (rotLoop S fuel p k (k + r)) m Q := by
  have hw : 0 < w := Nat.lt_of_le_of_lt (Nat.zero_le _) hp
  obtain ⟨fuel, rfl⟩ : ∃ f, fuel = f + 1 := ⟨fuel - 1, by omega⟩
  have hA : wp (rotLoop S (fuel + 1) p k (k + r)) m fun _ m' =>
      ∀ i, r ≤ i → i < k + r → bitAt m' (p.addr + i) = bitAt m (p.addr + (i - r)) := by
    refine wp_rotLoop_bwd S hp (by omega) hkw hlt hov hm ?_
    intro m2 p2 hp2 hpa sm hb
    have hr0 : 0 ≤ k % r := Int.emod_nonneg _ (by omega)
    have hrk : k % r < r := Int.emod_lt_of_pos _ (by omega)
    by_cases hz : k % r = 0
    · rw [if_pos hz]
      intro i h1 h2
      rw [hb, if_pos (by omega)]; congr 1; omega
    · rw [if_neg hz]
      refine wp_rotLoop_frame S fuel hp2 (by omega) (by omega) (by omega) (by omega) ((sm.mapped hm).sub (by omega) (by omega)) ?_
      intro m3 h3 i h1 h2
      rw [h3.1 _ (by omega), hb, if_pos (by omega)]; congr 1; omega
  have hB := wp_rotLoop_frame S (fuel + 1) (Q := fun _ m' => OnlyIn m m' p.addr (p.addr + (k + r))) hp (by omega)
    (by omega : 0 < k) (by omega) (by omega) hm (fun m' h => h)
  exact wp_mono (wp_both hA hB) fun _ m' h => hQ m' h.2 h.1

/-- Whenever a block count overflows in some round, some contents are not rotated correctly. -/
theorem RotFails.witness (S : ShiftSem w) {k r : Int} (h : RotFails w k r) :
    ∃ g : Int → Bool, ∀ (fuel : Nat) (p : BitIter w) (m : Mem w), p.Valid → k + r < fuel → Holds m p.addr (k + r) g →
      wp (rotLoop S fuel p k (k + r)) m fun _ m' => ¬ Rotated m m' p.addr (p.addr + k) (p.addr + (k + r)) := by
  induction h with
  | @count k r h1 h2 =>
    refine ⟨fun i => decide (i = 0), fun fuel p m hp hf hg => ?_⟩
    obtain ⟨fuel, rfl⟩ : ∃ f, fuel = f + 1 := ⟨fuel - 1, by omega⟩
    have e : k + r - k = r := by omega
    refine wp_rotLoop_overflow S hp (by omega) (by omega) (by omega) (by omega) hg.mapped ?_
    intro m' hb hrot
    rw [e, hrot, if_neg (by omega), if_pos (by omega), hg.at _ (by omega) (by omega), hg.at _ (by omega) (by omega),
      decide_eq_true (by omega), decide_eq_false (by omega)] at hb
    cases hb
  | @left k r h1 h2 h3 ih =>
    obtain ⟨g, hg⟩ := ih
    obtain ⟨g0, hg0⟩ := RoundL.pre (w := w) (k := k) (n := k + r) (by omega) (by omega) g
    refine ⟨g0, fun fuel p m hp hf hm => ?_⟩
    have hw : 0 < w := Nat.lt_of_le_of_lt (Nat.zero_le _) hp
    obtain ⟨fuel, rfl⟩ : ∃ f, fuel = f + 1 := ⟨fuel - 1, by omega⟩
    have hpa := BitIter.add_addr hw p r
    have hpt := h3.parts
    refine wp_rotLoop_stepL S hp h1 h2 (by omega) hm.mapped ?_
    intro m2 sm hb
    have hh := hg0 m m2 p.addr hb hm
    rw [show p.addr + (k + r - k) = p.addr + r by omega] at hh
    refine wp_mono (hg fuel (p.add r) m2 (BitIter.add_valid hw _ _) (by omega)
      (by rwa [hpa, show k - r % k + r % k = k by omega])) ?_
    intro _ m3 hn hrot
    apply hn
    have := (rotated_fwd (by omega) (by omega) hb).2 hrot
    have e : (k + r) % k = r % k := by rw [Int.add_comm, Int.add_emod_right]
    rw [e] at this
    exact this.congr (by omega) (by omega) (by omega)
  | @right k r h1 h2 h3 ih =>
    obtain ⟨g, hg⟩ := ih
    obtain ⟨g0, hg0⟩ := RoundR.pre (w := w) (k := k) (k2 := r) (n := k + r) (by omega) (by omega) (by omega) g
    by_cases hov : 2 ^ 32 * r ≤ k
    · refine ⟨fun i => decide (i = 0), fun fuel p m hp hf hg => ?_⟩
      obtain ⟨fuel, rfl⟩ : ∃ f, fuel = f + 1 := ⟨fuel - 1, by omega⟩
      have e : k + r - k = r := by omega
      refine wp_rotLoop_overflow S hp (by omega) (by omega) (by omega) (by omega) hg.mapped ?_
      intro m' hb hrot
      rw [e, hrot, if_neg (by omega), if_pos (by omega), hg.at _ (by omega) (by omega), hg.at _ (by omega) (by omega),
        decide_eq_true (by omega), decide_eq_false (by omega)] at hb
      cases hb
    · refine ⟨g0, fun fuel p m hp hf hm => ?_⟩
      obtain ⟨fuel, rfl⟩ : ∃ f, fuel = f + 1 := ⟨fuel - 1, by omega⟩
      have hpt := h3.parts
      refine wp_rotLoop_stepR S hp h1 (by omega) (by omega) (by omega) hm.mapped ?_
      intro m2 sm hb
      refine wp_mono (hg fuel p m2 hp (by omega) (by rw [show k % r + (r - k % r) = r by omega]; exact hg0 m m2 p.addr hb hm)) ?_
      intro _ m3 hn hrot
      apply hn
      have := (rotated_bwd (by omega) (by omega) (by omega) hb).2 hrot
      exact this.congr rfl rfl (by omega)

/-- Two wrong rotations do not cancel out, inner round. `m2` is what the second rotation finds after its own first round. -/
theorem RotFails.pair (S : ShiftSem w) {a b : Int} (h : RotFails w a b ∨ RotFails w b a) :
    ∃ g : Int → Bool, ∀ (f1 f2 : Nat) (p1 p2 : BitIter w) (m1 : Mem w), p1.Valid → p2.Valid → a + b < f1 → b + a < f2 →
      Holds m1 p1.addr (a + b) g →
      wp (rotLoop S f1 p1 a (a + b)) m1 fun _ m1' => SameMapped m1 m1' ∧ ∀ m2 : Mem w, Mapped m2 p2.addr (p2.addr + (b + a)) →
        (∀ i, 0 ≤ i → i < b → bitAt m2 (p2.addr + i) = bitAt m1' (p1.addr + (i + a))) →
        (∀ i, b ≤ i → i < b + a → bitAt m2 (p2.addr + i) = bitAt m1' (p1.addr + (i - b))) →
        wp (rotLoop S f2 p2 b (b + a)) m2 fun _ m2' =>
          ¬ ((∀ i, 0 ≤ i → i < b → bitAt m2' (p2.addr + i) = bitAt m1 (p1.addr + (i + a))) ∧
            (∀ i, b ≤ i → i < b + a → bitAt m2' (p2.addr + i) = bitAt m1 (p1.addr + (i - b)))) := by
  have hpt : (w : Int) < a ∧ (w : Int) < b := by
    rcases h with h | h
    · exact h.parts
    · exact h.parts.symm
  have hne : a ≠ b := by
    rintro rfl
    have : RotFails w a a := by rcases h with h | h <;> exact h
    cases this <;> omega
  by_cases hab : RotFails w a b
  · by_cases hlt : a < b
    · by_cases hov : 2 ^ 32 * a ≤ b
      · refine ⟨fun i => decide (i = 2 * a), fun f1 f2 p1 p2 m1 hp1 hp2 hf1 hf2 hg => ?_⟩
        refine wp_rotLoop_leftPart S hp1 hf1 hpt.1 hlt hg.mapped ?_
        intro m1' o1 hr1
        refine ⟨o1.2, fun m2 hm2 hA hB => ?_⟩
        obtain ⟨f2, rfl⟩ : ∃ f, f2 = f + 1 := ⟨f2 - 1, by omega⟩
        refine wp_rotLoop_overflow S hp2 (by omega) (by omega) (by omega) (by omega) hm2 ?_
        rintro m2' hb ⟨hc, -⟩
        rw [show b + a - b = a by omega, hc a (by omega) (by omega), hA (2 * a) (by omega) (by omega),
          hr1 (2 * a + a) (by omega) (by omega), hg _ (by omega) (by omega), hg _ (by omega) (by omega)] at hb
        beta_reduce at hb
        rw [decide_eq_true (by omega), decide_eq_false (by omega)] at hb
        cases hb
      · obtain ⟨g, hg⟩ := hab.witness S
        refine ⟨g, fun f1 f2 p1 p2 m1 hp1 hp2 hf1 hf2 hm => ?_⟩
        refine wp_mono (wp_both (hg f1 p1 m1 hp1 hf1 hm) (wp_rotLoop_leftPart S hp1 hf1 hpt.1 hlt hm.mapped
          (Q := fun _ m1' => OnlyIn m1 m1' p1.addr (p1.addr + (a + b)) ∧
            ∀ i, 0 ≤ i → i < b → bitAt m1' (p1.addr + i) = bitAt m1 (p1.addr + (i + a))) (fun m' h1 h2 => ⟨h1, h2⟩))) ?_
        rintro _ m1' ⟨hn, o1, hr1⟩
        refine ⟨o1.2, fun m2 hm2 hA hB => ?_⟩
        refine wp_rotLoop_rightPart S hp2 hf2 hpt.1 (by omega) (by omega) hm2 ?_
        rintro m2' o2 hr2 ⟨hc, hd⟩
        apply hn
        have key : ∀ i, a ≤ i → i < a + b → bitAt m1' (p1.addr + i) = bitAt m2' (p2.addr + i) := by
          intro i h1 h2
          rw [hr2 i (by omega) (by omega), hA (i - a) (by omega) (by omega)]
          congr 1; omega
        intro i
        split_ifs with c1 c2
        · rw [show i = p1.addr + (i - p1.addr) by omega, hr1 _ (by omega) (by omega)]
          congr 1; omega
        · rw [show i = p1.addr + (i - p1.addr) by omega, key _ (by omega) (by omega), hd _ (by omega) (by omega)]
          congr 1; omega
        · exact o1.1 i (by omega)
    · by_cases hov : 2 ^ 32 * b ≤ a
      · refine ⟨fun i => decide (i = 0), fun f1 f2 p1 p2 m1 hp1 hp2 hf1 hf2 hg => ?_⟩
        obtain ⟨f1, rfl⟩ : ∃ f, f1 = f + 1 := ⟨f1 - 1, by omega⟩
        refine wp_mono (wp_both (wp_rotLoop_overflow S (k := a) (n := a + b) hp1 (by omega) (by omega) (by omega) (by omega) hg.mapped
            (Q := fun _ m1' => bitAt m1' (p1.addr + (a + b - a)) = bitAt m1 (p1.addr + 2 * (a + b - a))) (fun m' h => h))
          (wp_rotLoop_frame S _ (Q := fun _ m' => OnlyIn m1 m' p1.addr (p1.addr + (a + b))) hp1 hf1
            (by omega : 0 < a) (by omega) (by omega) hg.mapped (fun m' h => h))) ?_
        rintro _ m1' ⟨hb, o1⟩
        refine ⟨o1.2, fun m2 hm2 hA hB => ?_⟩
        refine wp_rotLoop_leftPart S hp2 hf2 hpt.2 (by omega) hm2 ?_
        rintro m2' o2 hr2 ⟨-, hd⟩
        have := hd b (by omega) (by omega)
        rw [hr2 b (by omega) (by omega), hB (b + b) (by omega) (by omega), show b + b - b = a + b - a by omega, hb,
          hg _ (by omega) (by omega), hg _ (by omega) (by omega)] at this
        beta_reduce at this
        rw [decide_eq_false (by omega), decide_eq_true (by omega)] at this
        cases this
      · obtain ⟨g, hg⟩ := hab.witness S
        refine ⟨g, fun f1 f2 p1 p2 m1 hp1 hp2 hf1 hf2 hm => ?_⟩
        refine wp_mono (wp_both (hg f1 p1 m1 hp1 hf1 hm) (wp_rotLoop_rightPart S hp1 hf1 hpt.2 (by omega) (by omega) hm.mapped
          (Q := fun _ m1' => OnlyIn m1 m1' p1.addr (p1.addr + (a + b)) ∧
            ∀ i, b ≤ i → i < a + b → bitAt m1' (p1.addr + i) = bitAt m1 (p1.addr + (i - b))) (fun m' h1 h2 => ⟨h1, h2⟩))) ?_
        rintro _ m1' ⟨hn, o1, hr1⟩
        refine ⟨o1.2, fun m2 hm2 hA hB => ?_⟩
        refine wp_rotLoop_leftPart S hp2 hf2 hpt.2 (by omega) hm2 ?_
        rintro m2' o2 hr2 ⟨hc, hd⟩
        apply hn
        have key : ∀ i, 0 ≤ i → i < a → bitAt m1' (p1.addr + i) = bitAt m2' (p2.addr + i) := by
          intro i h1 h2
          rw [hr2 i (by omega) (by omega), hB (i + b) (by omega) (by omega)]
          congr 1; omega
        intro i
        split_ifs with c1 c2
        · rw [show i = p1.addr + (i - p1.addr) by omega, key _ (by omega) (by omega), hc _ (by omega) (by omega)]
          congr 1; omega
        · rw [show i = p1.addr + (i - p1.addr) by omega, hr1 _ (by omega) (by omega)]
          congr 1; omega
        · exact o1.1 i (by omega)
  · have hba : RotFails w b a := h.resolve_left hab
    obtain ⟨g, hg⟩ := hba.witness S
    refine ⟨fun j => g ((j - 2 * a) % (b + a)), fun f1 f2 p1 p2 m1 hp1 hp2 hf1 hf2 hm => ?_⟩
    refine wp_rotLoop S f1 hp1 hf1 (by omega) (by omega) (by omega)
      (show RotFits w a (a + b - a) by rw [show a + b - a = b by omega]; exact hab) hm.mapped ?_
    intro m1' hrot
    refine ⟨hrot.sameMapped (by omega) (by omega) hm.mapped, fun m2 hm2 hA hB => ?_⟩
    have hrA : ∀ i, 0 ≤ i → i < b → bitAt m1' (p1.addr + i) = bitAt m1 (p1.addr + (i + a)) := by
      intro i h1 h2
      rw [hrot, if_pos (by omega)]; congr 1; omega
    have hrB : ∀ i, b ≤ i → i < b + a → bitAt m1' (p1.addr + i) = bitAt m1 (p1.addr + (i - b)) := by
      intro i h1 h2
      rw [hrot, if_neg (by omega), if_pos (by omega)]; congr 1; omega
    have hh : Holds m2 p2.addr (b + a) g := by
      intro i h1 h2
      by_cases c1 : i < b
      · rw [hA i h1 c1]
        by_cases c2 : i + a < b
        · rw [hrA _ (by omega) c2, hm _ (by omega) (by omega)]
          beta_reduce
          congr 2
          exact emod_of_eq (c := 0) h1 h2 (by omega)
        · rw [hrB _ (by omega) (by omega), hm _ (by omega) (by omega)]
          beta_reduce
          congr 2
          exact emod_of_eq (c := -1) h1 h2 (by omega)
      · rw [hB i (by omega) h2]
        by_cases c2 : i - b < b
        · rw [hrA _ (by omega) c2, hm _ (by omega) (by omega)]
          beta_reduce
          congr 2
          exact emod_of_eq (c := -1) h1 h2 (by omega)
        · rw [hrB _ (by omega) (by omega), hm _ (by omega) (by omega)]
          beta_reduce
          congr 2
          exact emod_of_eq (c := -2) h1 h2 (by omega)
    refine wp_mono (wp_both (hg f2 p2 m2 hp2 hf2 hh) (wp_rotLoop_frame S f2
      (Q := fun _ m' => OnlyIn m2 m' p2.addr (p2.addr + (b + a))) hp2 hf2 (by omega : 0 < b) (by omega) (by omega) hm2 (fun m' h => h))) ?_
    rintro _ m2' ⟨hn, o2⟩ ⟨hc, hd⟩
    apply hn
    intro i
    split_ifs with c1 c2
    · rw [show i + (p2.addr + b - p2.addr) = p2.addr + (i - p2.addr + b) by omega, hB _ (by omega) (by omega),
        show i - p2.addr + b - b = i - p2.addr by omega]
      conv => lhs; rw [show i = p2.addr + (i - p2.addr) by omega]
      by_cases c3 : i - p2.addr < b
      · rw [hrA _ (by omega) c3, hc _ (by omega) c3]
      · rw [hrB _ (by omega) (by omega), hd _ (by omega) (by omega)]
    · rw [show i - (p2.addr + (b + a) - (p2.addr + b)) = p2.addr + (i - p2.addr - a) by omega, hA _ (by omega) (by omega),
        show i - p2.addr - a + a = i - p2.addr by omega]
      conv => lhs; rw [show i = p2.addr + (i - p2.addr) by omega]
      by_cases c3 : i - p2.addr < b
      · rw [hrA _ (by omega) c3, hc _ (by omega) c3]
      · rw [hrB _ (by omega) (by omega), hd _ (by omega) (by omega)]
    · exact o2.1 i (by omega)

/-- Two wrong rotations do not cancel out: rotating by `l` and then by `r` does not restore some contents. -/
theorem RotFails.restores (S : ShiftSem w) {l r : Int} (h : RotFails w l r ∨ RotFails w r l) :
    ∃ g : Int → Bool, ∀ (f1 f2 : Nat) (p : BitIter w) (m : Mem w), p.Valid → l + r < f1 → r + l < f2 → Holds m p.addr (l + r) g →
      wp (rotLoop S f1 p l (l + r)) m fun _ m' => wp (rotLoop S f2 p r (r + l)) m' fun _ m'' => m'' ≠ m := by
  have hpt : (w : Int) < l ∧ (w : Int) < r := by
    rcases h with h | h
    · exact h.parts
    · exact h.parts.symm
  have hne : l ≠ r := by
    rintro rfl
    have : RotFails w l l := by rcases h with h | h <;> exact h
    cases this <;> omega
  by_cases hlt : l < r
  · by_cases hov : 2 ^ 32 * l ≤ r
    · refine ⟨fun i => decide (i = l), fun f1 f2 p m hp hf1 hf2 hg => ?_⟩
      refine wp_rotLoop_leftPart S hp hf1 hpt.1 hlt hg.mapped ?_
      intro m' o1 hr1
      obtain ⟨f2, rfl⟩ : ∃ f, f2 = f + 1 := ⟨f2 - 1, by omega⟩
      refine wp_rotLoop_overflow S hp (by omega) (by omega) (by omega) (by omega)
        (by rw [Int.add_comm r l]; exact o1.2.mapped hg.mapped) ?_
      rintro m'' hb rfl
      rw [show r + l - r = l by omega, hr1 _ (by omega) (by omega), hg _ (by omega) (by omega), hg _ (by omega) (by omega)] at hb
      beta_reduce at hb
      rw [decide_eq_true (by omega), decide_eq_false (by omega)] at hb
      cases hb
    · have hsub : RotFails w (l - r % l) (r % l) ∨ RotFails w (r % l) (l - r % l) := by
        rcases h with h | h
        · refine Or.inl ?_
          cases h with
          | count h1 h2 => omega
          | left h1 h2 h3 => exact h3
          | right h1 h2 h3 => omega
        · refine Or.inr ?_
          cases h with
          | count h1 h2 => omega
          | left h1 h2 h3 => omega
          | right h1 h2 h3 => exact h3
      have hpt2 : (w : Int) < l - r % l ∧ (w : Int) < r % l := by
        rcases hsub with h | h
        · exact h.parts
        · exact h.parts.symm
      obtain ⟨g, hg⟩ := RotFails.pair S hsub
      obtain ⟨g0, hg0⟩ := RoundL.pre (w := w) (k := l) (n := l + r) (by omega) (by omega) g
      refine ⟨g0, fun f1 f2 p m hp hf1 hf2 hm => ?_⟩
      have hw : 0 < w := Nat.lt_of_le_of_lt (Nat.zero_le _) hp
      obtain ⟨f1, rfl⟩ : ∃ f, f1 = f + 1 := ⟨f1 - 1, by omega⟩
      obtain ⟨f2, rfl⟩ : ∃ f, f2 = f + 1 := ⟨f2 - 1, by omega⟩
      have hpa := BitIter.add_addr hw p r
      refine wp_rotLoop_stepL S hp hpt.1 hlt (by omega) hm.mapped ?_
      intro m1 sm1 hb1
      have hh := hg0 m m1 p.addr hb1 hm
      rw [show p.addr + (l + r - l) = p.addr + r by omega] at hh
      refine wp_mono (hg f1 f2 (p.add r) p m1 (BitIter.add_valid hw _ _) hp (by omega) (by omega)
        (by rwa [hpa, show l - r % l + r % l = l by omega])) ?_
      rintro _ m1' ⟨sm1', hinner⟩
      have hmap : Mapped m1' p.addr (p.addr + (r + l)) := by
        rw [Int.add_comm r l]; exact sm1'.mapped (sm1.mapped hm.mapped)
      refine wp_rotLoop_stepR S hp hpt.1 (by omega) (by omega) (by omega) hmap ?_
      intro m2 sm2 hb2
      refine wp_mono (hinner m2 ((sm2.mapped hmap).sub (by omega) (by omega)) ?_ ?_) ?_
      · intro i h1 h2
        rw [hb2, if_neg (by omega), if_pos (by omega)]; congr 1; omega
      · intro i h1 h2
        rw [hb2, if_neg (by omega), if_neg (by omega), if_pos (by omega)]; congr 1; omega
      · rintro _ m'' hn rfl
        have hdiv := Int.emod_add_mul_ediv r l
        apply hn
        constructor
        · intro i h1 h2
          rw [hb1, if_neg (by omega), if_pos (by omega)]
          congr 2
          rw [emod_of_eq (j := i) (c := r / l + 1) (by omega) (by omega) (by rw [Int.mul_add]; omega)]
        · intro i h1 h2
          rw [hb1, if_neg (by omega), if_pos (by omega)]
          congr 2
          rw [emod_of_eq (j := i) (c := r / l) (by omega) (by omega) (by omega)]
  · by_cases hov : 2 ^ 32 * r ≤ l
    · refine ⟨fun i => decide (i = 0), fun f1 f2 p m hp hf1 hf2 hg => ?_⟩
      obtain ⟨f1, rfl⟩ : ∃ f, f1 = f + 1 := ⟨f1 - 1, by omega⟩
      refine wp_mono (wp_both (wp_rotLoop_overflow S (k := l) (n := l + r) hp (by omega) (by omega) (by omega) (by omega) hg.mapped
          (Q := fun _ m' => bitAt m' (p.addr + (l + r - l)) = bitAt m (p.addr + 2 * (l + r - l))) (fun m' h => h))
        (wp_rotLoop_frame S _ (Q := fun _ m' => OnlyIn m m' p.addr (p.addr + (l + r))) hp hf1
          (by omega : 0 < l) (by omega) (by omega) hg.mapped (fun m' h => h))) ?_
      rintro _ m' ⟨hb, o1⟩
      refine wp_rotLoop_leftPart S hp hf2 hpt.2 (by omega) (by rw [Int.add_comm r l]; exact o1.2.mapped hg.mapped) ?_
      rintro m'' o2 hr2 rfl
      have := hr2 0 (by omega) (by omega)
      rw [show 0 + r = l + r - l by omega, hb, hg _ (by omega) (by omega), hg _ (by omega) (by omega)] at this
      beta_reduce at this
      rw [decide_eq_true (by omega), decide_eq_false (by omega)] at this
      cases this
    · have hsub : RotFails w (l % r) (r - l % r) ∨ RotFails w (r - l % r) (l % r) := by
        rcases h with h | h
        · refine Or.inl ?_
          cases h with
          | count h1 h2 => omega
          | left h1 h2 h3 => omega
          | right h1 h2 h3 => exact h3
        · refine Or.inr ?_
          cases h with
          | count h1 h2 => omega
          | left h1 h2 h3 => exact h3
          | right h1 h2 h3 => omega
      have hpt2 : (w : Int) < l % r ∧ (w : Int) < r - l % r := by
        rcases hsub with h | h
        · exact h.parts
        · exact h.parts.symm
      obtain ⟨g, hg⟩ := RotFails.pair S hsub
      obtain ⟨g0, hg0⟩ := RoundR.pre (w := w) (k := l) (k2 := r) (n := l + r) (by omega) (by omega) (by omega) g
      refine ⟨g0, fun f1 f2 p m hp hf1 hf2 hm => ?_⟩
      have hw : 0 < w := Nat.lt_of_le_of_lt (Nat.zero_le _) hp
      obtain ⟨f1, rfl⟩ : ∃ f, f1 = f + 1 := ⟨f1 - 1, by omega⟩
      obtain ⟨f2, rfl⟩ : ∃ f, f2 = f + 1 := ⟨f2 - 1, by omega⟩
      have hpa := BitIter.add_addr hw p l
      have hdiv := Int.emod_add_mul_ediv l r
      refine wp_rotLoop_stepR S hp hpt.2 (by omega) (by omega) (by omega) hm.mapped ?_
      intro m1 sm1 hb1
      refine wp_mono (hg f1 f2 p (p.add l) m1 hp (BitIter.add_valid hw _ _) (by omega) (by omega)
        (by rw [show l % r + (r - l % r) = r by omega]; exact hg0 m m1 p.addr hb1 hm)) ?_
      rintro _ m1' ⟨sm1', hinner⟩
      have hmap : Mapped m1' p.addr (p.addr + (r + l)) := by
        rw [Int.add_comm r l]; exact sm1'.mapped (sm1.mapped hm.mapped)
      refine wp_rotLoop_stepL S hp hpt.2 (by omega) (by omega) hmap ?_
      intro m2 sm2 hb2
      refine wp_mono (hinner m2 ((sm2.mapped hmap).sub (by omega) (by omega)) ?_ ?_) ?_
      · intro i h1 h2
        rw [hb2, if_neg (by omega), if_pos (by omega)]
        congr 2
        exact emod_of_eq (c := l / r) (by omega) (by omega) (by omega)
      · intro i h1 h2
        rw [hb2, if_neg (by omega), if_pos (by omega)]
        congr 2
        exact emod_of_eq (c := l / r + 1) (by omega) (by omega) (by rw [Int.mul_add]; omega)
      · rintro _ m'' hn rfl
        apply hn
        constructor
        · intro i h1 h2
          rw [hb1, if_neg (by omega), if_neg (by omega), if_pos (by omega)]; congr 1; omega
        · intro i h1 h2
          rw [hb1, if_neg (by omega), if_pos (by omega)]; congr 1; omega

/-- Both parts longer than a word and of different lengths: the loop does the work. -/
theorem wp_rotate_loop (S : ShiftSem w) {first nFirst last : BitIter w} {m : Mem w} {Q : BitIter w → Mem w → Prop}
    (hf : first.Valid) (hn : nFirst.Valid) (hl : last.Valid)
    (h1 : (w : Int) < nFirst.addr - first.addr) (h2 : (w : Int) < last.addr - nFirst.addr)
    (hne : nFirst.addr - first.addr ≠ last.addr - nFirst.addr)
    (hQ : ∀ fuel : Nat, last.addr - first.addr < fuel → wp (rotLoop S fuel first (nFirst.addr - first.addr)
      (nFirst.addr - first.addr + (last.addr - nFirst.addr))) m fun _ m' =>
        ∀ r : BitIter w, r.Valid → r.addr = first.addr + (last.addr - nFirst.addr) → Q r m') :
    wp (rotate S first nFirst last) m Q := by
  have hf' : first.pos < w := hf
  have hl' : last.pos < w := hl
  have hw : 0 < w := by omega
  have hfa : first.addr = first.base * w + first.pos := rfl
  have hla : last.addr = last.base * w + last.pos := rfl
  unfold rotate
  rw [wp_bind, wp_assertViable]
  refine ⟨by omega, ?_⟩
  rw [wp_bind, wp_assertViable]
  refine ⟨by omega, ?_⟩
  rw [wp_bind, wp_assertViable]
  refine ⟨by omega, ?_⟩
  have hbeq : ¬ first.beq nFirst := by rw [BitIter.beq_iff hf hn]; omega
  rw [if_neg hbeq]
  rw [if_neg (by
    intro hsame
    split_ifs at hsame
    · rw [← hsame, Int.add_mul] at hla; omega
    · rw [← hsame, Int.add_zero] at hla; omega)]
  rw [if_neg (by rw [isWithin_iff w first nFirst hf hn (by omega)]; omega),
    if_neg (by rw [isWithin_iff w nFirst last hn hl (by omega)]; omega)]
  unfold rotateViaRaw
  dsimp only
  rw [BitIter.diff_eq, BitIter.diff_eq, if_neg (by omega), wp_bind]
  have := hQ ((last.addr - first.addr).toNat + 1) (by omega)
  rw [show nFirst.addr - first.addr + (last.addr - nFirst.addr) = last.addr - first.addr by omega] at this
  refine wp_mono this ?_
  intro _ m' h
  rw [wp_pure, BitIter.diff_eq]
  exact h _ (BitIter.add_valid hw _ _) (BitIter.add_addr hw _ _)

end BitLib
