import Verif.Lemmas.Wp
/- Lemmas about iterator arithmetic in terms of bit addresses. -/
namespace BitLib
namespace BitIter
variable {w : Nat}

/-- The truncating division with correction is floor division. -/
theorem floor_fix (hw : 0 < w) (s : Int) :
    (if s < 0 ∧ Int.tdiv s w * w ≠ s then Int.tdiv s w - 1 else Int.tdiv s w) = s / (w : Int) := by
  have hw' : (0 : Int) < w := by omega
  rcases Int.lt_or_le s 0 with h | h
  · have h1 : Int.tdiv s w = -((-s) / (w : Int)) := by
      conv => lhs; rw [show s = -(-s) by omega]
      rw [Int.neg_tdiv, Int.tdiv_eq_ediv_of_nonneg (by omega)]
    have e1 := Int.mul_ediv_add_emod (-s) w
    have e2 := Int.emod_nonneg (-s) (b := (w : Int)) (by omega)
    have e3 := Int.emod_lt_of_pos (-s) hw'
    have f1 := Int.mul_ediv_add_emod s w
    have f2 := Int.emod_nonneg s (b := (w : Int)) (by omega)
    have f3 := Int.emod_lt_of_pos s hw'
    generalize hq : (-s) / (w : Int) = q at *
    generalize hr : s / (w : Int) = r at *
    rw [h1]
    -- s = w*r + f, -s = w*q + e
    have key : (w : Int) * (r + q) = -(s % w) - (-s % w) := by
      rw [Int.mul_add]; omega
    by_cases hz : -q * (w : Int) = s
    · rw [if_neg (by omega)]
      have : (w : Int) * q = -s := by rw [Int.neg_mul, Int.mul_comm] at hz; omega
      have e : -s % w = 0 := by omega
      have k2 : (w : Int) * (r + q) = -(s % w) := by omega
      rcases Int.lt_trichotomy (r + q) 0 with hh | hh | hh
      · have : (w : Int) * (r + q) ≤ w * (-1) := Int.mul_le_mul_of_nonneg_left (by omega) (by omega)
        omega
      · omega
      · have : (w : Int) * 1 ≤ w * (r + q) := Int.mul_le_mul_of_nonneg_left (by omega) (by omega)
        omega
    · rw [if_pos ⟨h, hz⟩]
      have : (w : Int) * q ≠ -s := by
        intro hh; apply hz; rw [Int.neg_mul, Int.mul_comm]; omega
      have e : 0 < -s % w := by omega
      rcases Int.lt_trichotomy (r + q) (-1) with hh | hh | hh
      · have : (w : Int) * (r + q) ≤ w * (-2) := Int.mul_le_mul_of_nonneg_left (by omega) (by omega)
        omega
      · omega
      · have : (w : Int) * 0 ≤ w * (r + q) := Int.mul_le_mul_of_nonneg_left (by omega) (by omega)
        omega
  · rw [if_neg (by omega), Int.tdiv_eq_ediv_of_nonneg h]

theorem add_eq (hw : 0 < w) (it : BitIter w) (n : Int) :
    it.add n = ⟨it.base + (it.pos + n) / (w : Int), ((it.pos + n) % (w : Int)).toNat⟩ := by
  unfold add
  simp only
  rw [floor_fix hw]
  congr 2
  have := Int.mul_ediv_add_emod ((it.pos : Int) + n) w
  rw [Int.mul_comm] at this
  omega

theorem sub_eq_add (it : BitIter w) (n : Int) : it.sub n = it.add (-n) := by
  unfold sub add
  simp only [Int.sub_eq_add_neg]

theorem add_valid (hw : 0 < w) (it : BitIter w) (n : Int) : (it.add n).Valid := by
  rw [add_eq hw]
  have := Int.emod_lt_of_pos ((it.pos : Int) + n) (b := (w : Int)) (by omega)
  have := Int.emod_nonneg ((it.pos : Int) + n) (b := (w : Int)) (by omega)
  show ((it.pos + n) % (w : Int)).toNat < w
  omega

theorem add_addr (hw : 0 < w) (it : BitIter w) (n : Int) : (it.add n).addr = it.addr + n := by
  rw [add_eq hw]
  have h1 := Int.mul_ediv_add_emod ((it.pos : Int) + n) w
  have h2 := Int.emod_nonneg ((it.pos : Int) + n) (b := (w : Int)) (by omega)
  rw [Int.mul_comm] at h1
  show (it.base + (it.pos + n) / (w : Int)) * (w : Int) + (((it.pos + n) % (w : Int)).toNat : Int) =
    it.base * w + it.pos + n
  rw [Int.add_mul]
  omega

theorem sub_valid (hw : 0 < w) (it : BitIter w) (n : Int) : (it.sub n).Valid := by
  rw [sub_eq_add]; exact add_valid hw _ _

theorem sub_addr (hw : 0 < w) (it : BitIter w) (n : Int) : (it.sub n).addr = it.addr - n := by
  rw [sub_eq_add, add_addr hw]; omega

theorem diff_eq (a b : BitIter w) : a.diff b = a.addr - b.addr := by
  unfold diff addr
  rw [Int.sub_mul]
  omega

theorem addr_inj {a b : BitIter w} (ha : a.Valid) (hb : b.Valid) (h : a.addr = b.addr) : a = b := by
  unfold Valid at *
  unfold addr at h
  have : a.base = b.base := by
    rcases Int.lt_trichotomy a.base b.base with hh | hh | hh
    · have := base_lt_mul (w := w) hh; omega
    · exact hh
    · have := base_lt_mul (w := w) hh; omega
  cases a; cases b
  simp only at *
  subst this
  congr
  omega

theorem eq_iff_addr {a b : BitIter w} (ha : a.Valid) (hb : b.Valid) : a = b ↔ a.addr = b.addr :=
  ⟨fun h => by rw [h], addr_inj ha hb⟩

theorem beq_iff {a b : BitIter w} (ha : a.Valid) (hb : b.Valid) : a.beq b = true ↔ a.addr = b.addr := by
  rw [← eq_iff_addr ha hb]
  unfold beq
  rw [decide_eq_true_iff]
  constructor
  · rintro ⟨h1, h2⟩; cases a; cases b; simp_all
  · rintro rfl; simp

theorem inc_eq_add {it : BitIter w} (h : it.Valid) : it.inc = it.add 1 := by
  unfold Valid at h
  have hw : 0 < w := by omega
  apply addr_inj _ (add_valid hw _ _)
  · rw [add_addr hw]
    unfold inc addr
    split
    · simp only; omega
    · simp only [Int.add_mul, Int.one_mul]
      omega
  · unfold inc Valid
    split <;> simp only <;> omega

theorem dec_eq_sub {it : BitIter w} (h : it.Valid) : it.dec = it.sub 1 := by
  unfold Valid at h
  have hw : 0 < w := by omega
  apply addr_inj _ (sub_valid hw _ _)
  · rw [sub_addr hw]
    unfold dec addr
    split
    · simp only; omega
    · simp only [Int.sub_mul, Int.one_mul]
      omega
  · unfold dec Valid
    split <;> simp only <;> omega

end BitIter

variable {w : Nat}

theorem wp_assertViable {first last : BitIter w} {m : Mem w} {Q : Unit → Mem w → Prop} :
    wp (assertViable first last) m Q ↔ first.addr ≤ last.addr ∧ Q () m := by
  unfold assertViable
  rw [wp_assert, BitIter.diff_eq]
  constructor <;> rintro ⟨h, hq⟩ <;> exact ⟨by omega, hq⟩

theorem wp_distance {first last : BitIter w} {m : Mem w} {Q : Int → Mem w → Prop} :
    wp (distance first last) m Q ↔ first.addr ≤ last.addr ∧ Q (last.addr - first.addr) m := by
  unfold distance
  rw [wp_bind, wp_assertViable, wp_pure]
  have : (last.base - first.base) * (w : Int) + ((last.pos : Int) - (first.pos : Int))
      = last.addr - first.addr := by
    have := BitIter.diff_eq last first
    unfold BitIter.diff at this
    exact this
  rw [this]

theorem wp_mk? {a : Int} {p : Nat} {m : Mem w} {Q : BitIter w → Mem w → Prop} :
    wp (BitIter.mk? a p) m Q ↔ p < w ∧ Q ⟨a, p⟩ m := by
  unfold BitIter.mk?
  rw [wp_bind, wp_assert, wp_pure]

theorem isWithinAux_iff {rem : Nat} (hr : rem < w) (k : Nat) (first last : BitIter w)
    (hf : first.Valid) (hl : last.Valid) (hle : first.addr ≤ last.addr) :
    isWithinAux rem k first last = true ↔ last.addr - first.addr ≤ (k : Int) * w + rem := by
  unfold BitIter.Valid at hf hl
  have hw : 0 < w := by omega
  induction k generalizing first with
  | zero =>
    unfold isWithinAux
    simp only [Bool.or_eq_true, Bool.and_eq_true, decide_eq_true_eq]
    unfold BitIter.addr at *
    rcases Int.lt_trichotomy first.base last.base with h | h | h
    · rcases Int.lt_trichotomy (first.base + 1) last.base with h2 | h2 | h2
      · have := base_lt_mul (w := w) h2
        rw [Int.add_mul] at this
        omega
      · have := congrArg (fun x => x * (w : Int)) h2
        simp only [Int.add_mul, Int.one_mul] at this
        omega
      · omega
    · rw [h] at *
      omega
    · have := base_lt_mul (w := w) h
      omega
  | succ k ih =>
    unfold isWithinAux
    simp only [Bool.or_eq_true, Bool.and_eq_true, decide_eq_true_eq]
    have ha := BitIter.add_addr hw first (w : Int)
    have hv := BitIter.add_valid hw first (w : Int)
    push_cast
    rw [Int.add_mul, Int.one_mul]
    have hkw : 0 ≤ (k : Int) * w := Int.mul_nonneg (by omega) (by omega)
    by_cases hcase : first.addr + w ≤ last.addr
    · have hih := ih (first.add w) hv (by omega)
      rw [ha] at hih
      constructor
      · rintro ((h | ⟨h, h2⟩) | h)
        · unfold BitIter.addr at *; rw [h] at *; omega
        · have := congrArg (fun x => x * (w : Int)) h
          simp only [Int.add_mul, Int.one_mul] at this
          unfold BitIter.addr at *
          omega
        · have := hih.1 h
          omega
      · intro h; right; apply hih.2; omega
    · constructor
      · intro _; omega
      · intro _
        left
        unfold BitIter.addr at *
        rcases Int.lt_trichotomy first.base last.base with h | h | h
        · rcases Int.lt_trichotomy (first.base + 1) last.base with h2 | h2 | h2
          · have := base_lt_mul (w := w) h2
            rw [Int.add_mul] at this
            omega
          · have := congrArg (fun x => x * (w : Int)) h2
            simp only [Int.add_mul, Int.one_mul] at this
            right
            exact ⟨h2, by omega⟩
          · omega
        · left; exact h
        · have := base_lt_mul (w := w) h
          omega

theorem isWithin_iff (N : Nat) (first last : BitIter w)
    (hf : first.Valid) (hl : last.Valid) (hle : first.addr ≤ last.addr) :
    isWithin N first last = true ↔ last.addr - first.addr ≤ (N : Int) := by
  have hw : 0 < w := by unfold BitIter.Valid at hf; omega
  unfold isWithin
  rw [isWithinAux_iff (Nat.mod_lt _ hw) _ _ _ hf hl hle]
  have : ((N / w : Nat) : Int) * w + ((N % w : Nat) : Int) = N := by
    have := Nat.div_add_mod N w
    rw [Nat.mul_comm] at this
    rw [← Int.natCast_mul]
    omega
  rw [this]

end BitLib
