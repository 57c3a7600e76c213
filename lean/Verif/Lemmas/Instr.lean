import Verif.Model.Instr
import Verif.Lemmas.Word
import Verif.SpecWord
import Mathlib.Data.Nat.Find
import Mathlib.Tactic.ByContra
/- Helper lemmas about the word instructions of `Model/Instr.lean`. -/
namespace BitLib
variable {w : Nat}

theorem onesBelow_zero (x : BitVec w) : onesBelow x 0 = 0 := rfl

theorem onesBelow_succ (x : BitVec w) (k : Nat) :
    onesBelow x (k + 1) = onesBelow x k + (if x.getLsbD k then 1 else 0) := by
  unfold onesBelow
  rw [List.range_succ, List.countP_append]
  simp [List.countP_cons]

theorem onesBelow_le (x : BitVec w) (k : Nat) : onesBelow x k ≤ k := by
  unfold onesBelow
  exact Nat.le_trans List.countP_le_length (by simp)

theorem onesBelow_mono (x : BitVec w) {j k : Nat} (h : j ≤ k) : onesBelow x j ≤ onesBelow x k := by
  induction k, h using Nat.le_induction with
  | base => exact Nat.le_refl _
  | succ k _ ih => rw [onesBelow_succ]; omega

theorem onesBelow_lt (x : BitVec w) {j k : Nat} (h : j < k) (hj : x.getLsbD j = true) : onesBelow x j < onesBelow x k := by
  have := onesBelow_mono x (show j + 1 ≤ k from h)
  rw [onesBelow_succ, hj] at this
  simp only [if_true] at this
  omega

theorem popcntBits_eq (x : BitVec w) (k : Nat) : popcntBits x k = onesBelow x k := by
  induction k with
  | zero => rfl
  | succ k ih => rw [popcntBits, onesBelow_succ, ih]

theorem onesBelow_ge (x : BitVec w) {k : Nat} (h : w ≤ k) : onesBelow x k = onesBelow x w := by
  induction k, h using Nat.le_induction with
  | base => rfl
  | succ k hk ih => rw [onesBelow_succ, ih, BitVec.getLsbD_of_ge x k hk]; simp

theorem onesBelow_setWidth (x : BitVec w) {v : Nat} (h : w ≤ v) (k : Nat) : onesBelow (x.setWidth v) k = onesBelow x k := by
  induction k with
  | zero => rfl
  | succ k ih =>
    rw [onesBelow_succ, onesBelow_succ, ih, BitVec.getLsbD_setWidth]
    by_cases hk : k < v
    · simp [hk]
    · rw [BitVec.getLsbD_of_ge x k (by omega)]; simp

/-- The value of a word is zero iff all its bits are. -/
theorem eq_zero_iff_bits (x : BitVec w) : x = 0#w ↔ ∀ i, i < w → x.getLsbD i = false := by
  constructor
  · intro h i _; rw [h]; simp
  · intro h
    apply BitVec.eq_of_getLsbD_eq
    intro i hi
    rw [h i hi]; simp

theorem shr_eq_zero_iff (x : BitVec w) (t : Nat) : x >>> t = 0#w ↔ ∀ i, t ≤ i → x.getLsbD i = false := by
  rw [eq_zero_iff_bits]
  constructor
  · intro h i hi
    by_cases hw : i < w
    · have := h (i - t) (by omega)
      rw [BitVec.getLsbD_ushiftRight] at this
      rwa [show t + (i - t) = i by omega] at this
    · exact BitVec.getLsbD_of_ge x i (by omega)
  · intro h i hi
    rw [BitVec.getLsbD_ushiftRight]
    exact h _ (by omega)

theorem shr_width (x : BitVec w) {t : Nat} (h : w ≤ t) : x >>> t = 0#w := by
  rw [shr_eq_zero_iff]; intro i hi; exact BitVec.getLsbD_of_ge x i (by omega)

theorem and_one_ne_zero (x : BitVec w) : (x &&& 1#w ≠ 0#w) ↔ x.getLsbD 0 = true := by
  rw [Ne, eq_zero_iff_bits]
  constructor
  · intro h
    by_contra hn
    apply h
    intro i hi
    rw [BitVec.getLsbD_and, BitVec.getLsbD_one]
    by_cases hi0 : i = 0
    · subst hi0; simp at hn; simp [hn]
    · simp [hi0]
  · intro h hall
    have hw : 0 < w := by
      by_contra hn
      rw [BitVec.getLsbD_of_ge x 0 (by omega)] at h
      exact Bool.noConfusion h
    have := hall 0 hw
    rw [BitVec.getLsbD_and, BitVec.getLsbD_one, h] at this
    simp [hw] at this

theorem and_one_eq (x : BitVec w) : x &&& 1#w = if x.getLsbD 0 then 1#w else 0#w := by
  apply BitVec.eq_of_getLsbD_eq
  intro i hi
  rw [BitVec.getLsbD_and, BitVec.getLsbD_one]
  by_cases hi0 : i = 0
  · subst hi0
    cases x.getLsbD 0 <;> simp [hi]
  · cases x.getLsbD 0 <;> simp [hi0, BitVec.getLsbD_one]

/-! ### population count -/

theorem popcntLoop_spec (x : BitVec w) : ∀ (fuel t : Nat), t ≤ w → w < fuel + t →
    popcntLoop fuel (x >>> t) (BitVec.ofNat w (onesBelow x t)) = .ok (BitVec.ofNat w (onesBelow x w)) := by
  intro fuel
  induction fuel with
  | zero => intro t h1 h2; omega
  | succ fuel ih =>
    intro t h1 h2
    unfold popcntLoop
    by_cases hz : x >>> t = 0#w
    · rw [if_pos hz]
      rw [shr_eq_zero_iff] at hz
      have : ∀ k, t ≤ k → onesBelow x k = onesBelow x t := by
        intro k hk
        induction k, hk using Nat.le_induction with
        | base => rfl
        | succ k hk ih2 => rw [onesBelow_succ, ih2, hz k hk]; simp
      rw [this w h1]
    · rw [if_neg hz]
      have htw : t < w := by
        by_contra hn
        exact hz (shr_width x (by omega))
      rw [← BitVec.shiftRight_add, and_one_eq, BitVec.getLsbD_ushiftRight]
      have := ih (t + 1) (by omega) (by omega)
      rw [onesBelow_succ] at this
      rw [← this]
      congr 1
      rw [Nat.add_zero]
      split_ifs
      · rw [BitVec.ofNat_add]
      · simp

theorem popcntPort_spec (x : BitVec w) : popcntPort x = .ok (BitVec.ofNat w (onesBelow x w)) := by
  unfold popcntPort
  have := popcntLoop_spec x (w + 1) 0 (Nat.zero_le _) (by omega)
  simpa [onesBelow_zero] using this

theorem popcntBuiltin_spec (x : BitVec w) : popcntBuiltin x = .ok (BitVec.ofNat w (onesBelow x w)) := by
  unfold popcntBuiltin popcnt
  split_ifs with h1 h2
  · rw [popcntBits_eq, onesBelow_setWidth x h1, onesBelow_ge x h1]
  · rw [popcntBits_eq, onesBelow_setWidth x h2, onesBelow_ge x h2]
  · exact popcntPort_spec x

theorem toNat_ofNat_le {k : Nat} (h : k ≤ w) : (BitVec.ofNat w k).toNat = k := by
  rw [BitVec.toNat_ofNat, Nat.mod_eq_of_lt (Nat.lt_of_le_of_lt h (lt_two_pow_self w))]

/-! ### leading zeros -/

/-- Loop of `_lzcnt`: it adds the index of the highest set bit. -/
theorem lzcntLoop_spec : ∀ (fuel : Nat) (x dst : BitVec w) (p : Nat), p < fuel → (∀ i, p < i → x.getLsbD i = false) →
    (x.getLsbD p = true ∨ p = 0) → lzcntLoop fuel x dst = .ok (dst + BitVec.ofNat w p) := by
  intro fuel
  induction fuel with
  | zero => intro x dst p h; omega
  | succ fuel ih =>
    intro x dst p hp hz h1
    unfold lzcntLoop
    by_cases hp0 : p = 0
    · subst hp0
      rw [if_pos]
      · simp
      · rw [shr_eq_zero_iff]; intro i hi; exact hz i (by omega)
    · have hbit : x.getLsbD p = true := by rcases h1 with h | h; exact h; exact absurd h hp0
      rw [if_neg]
      · rw [ih (x >>> 1) (dst + 1#w) (p - 1) (by omega)]
        · congr 1
          rw [BitVec.add_assoc, ← BitVec.ofNat_add, show 1 + (p - 1) = p by omega]
        · intro i hi
          rw [BitVec.getLsbD_ushiftRight]; exact hz _ (by omega)
        · left
          rw [BitVec.getLsbD_ushiftRight, show 1 + (p - 1) = p by omega]; exact hbit
      · rw [shr_eq_zero_iff]
        intro h
        rw [h p (by omega)] at hbit
        exact Bool.noConfusion hbit

/-- A nonzero word has a highest set bit. -/
theorem exists_top (x : BitVec w) (h : x ≠ 0#w) : ∃ p, p < w ∧ x.getLsbD p = true ∧ ∀ i, p < i → x.getLsbD i = false := by
  have key : ∀ k, k ≤ w → (∀ i, k ≤ i → x.getLsbD i = false) →
      ∃ p, p < w ∧ x.getLsbD p = true ∧ ∀ i, p < i → x.getLsbD i = false := by
    intro k
    induction k with
    | zero =>
      intro _ hz
      exact absurd ((eq_zero_iff_bits x).2 fun i _ => hz i (Nat.zero_le _)) h
    | succ k ih =>
      intro hk hz
      by_cases hb : x.getLsbD k = true
      · exact ⟨k, by omega, hb, fun i hi => hz i (by omega)⟩
      · apply ih (by omega)
        intro i hi
        by_cases hik : i = k
        · subst hik; simpa using hb
        · exact hz i (by omega)
  exact key w (Nat.le_refl _) fun i hi => BitVec.getLsbD_of_ge x i hi

theorem lzcntPort_top {x : BitVec w} {p : Nat} (hp : p < w) (hb : x.getLsbD p = true)
    (hz : ∀ i, p < i → x.getLsbD i = false) : lzcntPort x = .ok (BitVec.ofNat w (w - 1 - p)) := by
  have hx : x ≠ 0#w := by
    intro h; rw [h] at hb; simp at hb
  unfold lzcntPort
  rw [lzcntLoop_spec (w + 1) x _ p (by omega) hz (Or.inl hb)]
  simp only [bind, Except.bind, pure, Except.pure, boolWord, decide_eq_true hx, if_true]
  congr 1
  apply BitVec.eq_of_toNat_eq
  have h1 : (1#w + BitVec.ofNat w p) = BitVec.ofNat w (1 + p) := by rw [BitVec.ofNat_add]
  rw [h1, BitVec.toNat_sub_of_le, toNat_ofNat_le (Nat.le_refl w), toNat_ofNat_le (by omega), toNat_ofNat_le (by omega)]
  · omega
  · rw [BitVec.le_def, toNat_ofNat_le (Nat.le_refl w), toNat_ofNat_le (by omega)]; omega

theorem lzcntPort_zero : lzcntPort (0#w) = .ok (BitVec.ofNat w w) := by
  unfold lzcntPort
  rw [lzcntLoop_spec (w + 1) 0#w _ 0 (by omega) (by intro i _; simp) (Or.inr rfl)]
  simp [bind, Except.bind, pure, Except.pure, boolWord]

theorem clzAux_spec (x : BitVec w) {p : Nat} (hb : x.getLsbD p = true) :
    ∀ k, p < k → (∀ i, p < i → i < k → x.getLsbD i = false) → clzAux x k = k - 1 - p := by
  intro k
  induction k with
  | zero => intro h; omega
  | succ k ih =>
    intro hk hz
    unfold clzAux
    by_cases hpk : p = k
    · subst hpk; rw [if_pos hb]; omega
    · rw [if_neg (by rw [hz k (by omega) (by omega)]; simp), ih (by omega) (fun i h1 h2 => hz i h1 (by omega))]
      omega

theorem builtinClz_spec {x : BitVec w} {p v : Nat} (hv : w ≤ v) (hp : p < w) (hb : x.getLsbD p = true)
    (hz : ∀ i, p < i → x.getLsbD i = false) : builtinClz (x.setWidth v) = .ok (v - 1 - p) := by
  have hb' : (x.setWidth v).getLsbD p = true := by
    rw [BitVec.getLsbD_setWidth, hb]; simp; omega
  unfold builtinClz
  rw [if_neg, clzAux_spec (x.setWidth v) hb' v (by omega)]
  · intro i h1 _
    rw [BitVec.getLsbD_setWidth, hz i h1]; simp
  · intro h; rw [h] at hb'; simp at hb'

theorem lzcntBuiltin_eq (x : BitVec w) : lzcntBuiltin x = lzcntPort x := by
  by_cases hx : x = 0#w
  · subst hx
    rw [lzcntPort_zero]
    unfold lzcntBuiltin
    simp only [ne_eq, not_true, if_false, lzcntPort_zero, ite_self]
  · obtain ⟨p, hp, hb, hz⟩ := exists_top x hx
    have e := lzcntPort_top hp hb hz
    unfold lzcntBuiltin
    simp only [ne_eq, hx, not_false_eq_true, if_true]
    split_ifs with h1 h2 h3 h4
    · rw [builtinClz_spec (by omega) hp hb hz, e]
      simp only [bind, Except.bind, pure, Except.pure]
      congr 2; omega
    · rw [builtinClz_spec (by omega) hp hb hz, e]
      simp only [bind, Except.bind, pure, Except.pure]
      congr 2; omega
    · rw [builtinClz_spec (by omega) hp hb hz, e]
      simp only [bind, Except.bind, pure, Except.pure]
      congr 2; omega
    · rw [builtinClz_spec (by omega) hp hb hz, e]
      simp only [bind, Except.bind, pure, Except.pure]
      congr 2; omega
    · rfl

/-! ### trailing zeros -/

/-- A nonzero word has a lowest set bit. -/
theorem exists_bot (x : BitVec w) (h : x ≠ 0#w) : ∃ p, p < w ∧ x.getLsbD p = true ∧ ∀ i, i < p → x.getLsbD i = false := by
  have hex : ∃ i, x.getLsbD i = true := by
    by_contra hn
    apply h
    rw [eq_zero_iff_bits]
    intro i _
    by_contra hb
    exact hn ⟨i, by simpa using hb⟩
  classical
  refine ⟨Nat.find hex, ?_, Nat.find_spec hex, ?_⟩
  · by_contra hn
    have := Nat.find_spec hex
    rw [BitVec.getLsbD_of_ge x _ (by omega)] at this
    exact Bool.noConfusion this
  · intro i hi
    have := Nat.find_min hex hi
    simpa using this

theorem toNat_dvd_of_low {x : BitVec w} {p : Nat} (hz : ∀ i, i < p → x.getLsbD i = false) :
    x.toNat % 2 ^ p = 0 := by
  apply Nat.eq_of_testBit_eq
  intro i
  rw [Nat.testBit_mod_two_pow]
  by_cases hi : i < p
  · have := hz i hi
    rw [← BitVec.testBit_toNat] at this
    simp [this]
  · simp [hi]

/-- `x - 1` clears the lowest set bit and sets the zeros below it. -/
theorem getLsbD_sub_one {x : BitVec w} {p : Nat} (hb : x.getLsbD p = true)
    (hz : ∀ i, i < p → x.getLsbD i = false) (i : Nat) (hi : i < w) :
    (x - 1#w).getLsbD i = if i < p then true else if i = p then false else x.getLsbD i := by
  have hw : 0 < w := by omega
  have hmod := toNat_dvd_of_low hz
  have hbt : x.toNat.testBit p = true := by rw [BitVec.testBit_toNat]; exact hb
  obtain ⟨q, hq⟩ : ∃ q, x.toNat = 2 ^ p * q := ⟨x.toNat / 2 ^ p, by
    have := Nat.div_add_mod x.toNat (2 ^ p); omega⟩
  have hqo : q % 2 = 1 := by
    rw [hq, Nat.testBit_eq_decide_div_mod_eq, Nat.mul_div_cancel_left _ (Nat.two_pow_pos p)] at hbt
    simpa using hbt
  have hpp := Nat.two_pow_pos p
  have hx1 : 1 ≤ x.toNat := by rw [hq]; exact Nat.mul_pos hpp (by omega)
  have h1 : (1#w).toNat = 1 := by
    rw [BitVec.toNat_ofNat, Nat.mod_eq_of_lt]
    exact Nat.one_lt_two_pow (by omega)
  have hval : (x - 1#w).toNat = 2 ^ p * (q - 1) + (2 ^ p - 1) := by
    rw [BitVec.toNat_sub_of_le (by rw [BitVec.le_def, h1]; exact hx1), h1, hq, Nat.mul_sub, Nat.mul_one]
    have : 2 ^ p ≤ 2 ^ p * q := Nat.le_mul_of_pos_right _ (by omega)
    omega
  rw [← BitVec.testBit_toNat, hval, Nat.testBit_two_pow_mul_add _ (by omega)]
  by_cases h : i < p
  · rw [if_pos h, if_pos h, Nat.testBit_two_pow_sub_one]; simp [h]
  · rw [if_neg h, if_neg h]
    have hxi : x.getLsbD i = q.testBit (i - p) := by
      rw [← BitVec.testBit_toNat, hq, Nat.testBit_two_pow_mul]
      simp [show p ≤ i by omega]
    by_cases hip : i = p
    · rw [if_pos hip, hip, Nat.sub_self, Nat.testBit_zero]
      simp; omega
    · rw [if_neg hip, hxi]
      obtain ⟨j, hj⟩ : ∃ j, i - p = j + 1 := ⟨i - p - 1, by omega⟩
      rw [hj, Nat.testBit_succ, Nat.testBit_succ]
      congr 1
      omega

theorem tzcntLoop_spec : ∀ (fuel p : Nat) (x dst : BitVec w), p < fuel → p ≤ w →
    (∀ i, i < w → x.getLsbD i = decide (i < p)) →
    tzcntLoop fuel x dst = .ok (dst + BitVec.ofNat w p) := by
  intro fuel
  induction fuel with
  | zero => intro p x dst h; omega
  | succ fuel ih =>
    intro p x dst hf hpw hx
    unfold tzcntLoop
    by_cases hp : p = 0
    · subst hp
      rw [if_pos]
      · simp
      · rw [eq_zero_iff_bits]; intro i hi; rw [hx i hi]; simp
    · rw [if_neg]
      · rw [ih (p - 1) (x >>> 1) (dst + 1#w) (by omega) (by omega)]
        · congr 1
          rw [BitVec.add_assoc, ← BitVec.ofNat_add, show 1 + (p - 1) = p by omega]
        · intro i hi
          rw [BitVec.getLsbD_ushiftRight]
          by_cases h : 1 + i < w
          · rw [hx _ h]; congr 1; apply propext; omega
          · rw [BitVec.getLsbD_of_ge x _ (by omega)]; symm; simp; omega
      · rw [eq_zero_iff_bits]
        intro h
        have := h 0 (by omega)
        rw [hx 0 (by omega)] at this
        simp at this; omega

theorem tzcntPort_bot {x : BitVec w} {p : Nat} (hp : p < w) (hb : x.getLsbD p = true)
    (hz : ∀ i, i < p → x.getLsbD i = false) : tzcntPort x = .ok (BitVec.ofNat w p) := by
  have hx : x ≠ 0#w := by intro h; rw [h] at hb; simp at hb
  unfold tzcntPort
  rw [if_pos hx, tzcntLoop_spec (w + 1) p _ _ (by omega) (by omega)]
  · simp
  · intro i hi
    rw [BitVec.getLsbD_ushiftRight, BitVec.getLsbD_xor]
    by_cases h : 1 + i < w
    · rw [getLsbD_sub_one hb hz _ h]
      split_ifs with h1 h2
      · rw [hz _ h1]; simp; omega
      · rw [h2, hb]; simp; omega
      · simp; omega
    · rw [BitVec.getLsbD_of_ge x _ (by omega), BitVec.getLsbD_of_ge _ _ (by omega)]; symm; simp; omega

theorem tzcntPort_zero : tzcntPort (0#w) = .ok (BitVec.ofNat w w) := by
  unfold tzcntPort; simp

theorem tzcntAux_bot (x : BitVec w) {p : Nat} (hb : x.getLsbD p = true) (hz : ∀ i, i < p → x.getLsbD i = false) :
    ∀ k i, i ≤ p → p < i + k → tzcntAux x k i = p := by
  intro k
  induction k with
  | zero => intro i h1 h2; omega
  | succ k ih =>
    intro i h1 h2
    unfold tzcntAux
    by_cases hi : i = p
    · subst hi; rw [if_pos hb]
    · rw [if_neg (by rw [hz i (by omega)]; simp)]
      exact ih (i + 1) (by omega) (by omega)

theorem builtinCtz_spec {x : BitVec w} {p v : Nat} (hv : w ≤ v) (hp : p < w) (hb : x.getLsbD p = true)
    (hz : ∀ i, i < p → x.getLsbD i = false) : builtinCtz (x.setWidth v) = .ok p := by
  have hb' : (x.setWidth v).getLsbD p = true := by
    rw [BitVec.getLsbD_setWidth, hb]; simp; omega
  unfold builtinCtz
  rw [if_neg, tzcntAux_bot (x.setWidth v) hb' _ v 0 (by omega) (by omega)]
  · intro i h1
    rw [BitVec.getLsbD_setWidth, hz i h1]; simp
  · intro h; rw [h] at hb'; simp at hb'

theorem tzcntBuiltin_eq (x : BitVec w) : tzcntBuiltin x = tzcntPort x := by
  by_cases hx : x = 0#w
  · subst hx
    rw [tzcntPort_zero]
    unfold tzcntBuiltin
    simp only [ne_eq, not_true, if_false, tzcntPort_zero, ite_self]
  · obtain ⟨p, hp, hb, hz⟩ := exists_bot x hx
    have e := tzcntPort_bot hp hb hz
    unfold tzcntBuiltin
    simp only [ne_eq, hx, not_false_eq_true, if_true]
    split_ifs with h1 h2
    · rw [builtinCtz_spec h1 hp hb hz, e]; rfl
    · rw [builtinCtz_spec h2 hp hb hz, e]; rfl
    · rfl

/-- The count used by `find` is the one of the builtin overload. -/
theorem tzcnt_bot {x : BitVec w} {p : Nat} (hp : p < w) (hb : x.getLsbD p = true)
    (hz : ∀ i, i < p → x.getLsbD i = false) : tzcnt x = p :=
  tzcntAux_bot x hb hz w 0 (Nat.zero_le _) (by omega)

end BitLib
