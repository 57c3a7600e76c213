import Verif.SpecRef
import Verif.Lemmas.Ref
/- Words in a memory of bytes. -/
namespace BitLib

theorem byteAddr_inj {e : Endian} {k : Nat} {a : Int} {i j : Nat} (h : byteAddr e k a i = byteAddr e k a j) : i = j := by
  cases e <;> simp only [byteAddr] at h <;> omega

theorem byteAddr_range {e : Endian} {k : Nat} {a : Int} {i : Nat} (h : i < k) :
    a ≤ byteAddr e k a i ∧ byteAddr e k a i < a + (k : Int) := by
  cases e <;> simp only [byteAddr] <;> omega

theorem byteAddr_surj (e : Endian) {k : Nat} {a c : Int} (h1 : a ≤ c) (h2 : c < a + (k : Int)) :
    ∃ i, i < k ∧ c = byteAddr e k a i := by
  cases e with
  | little => exact ⟨(c - a).toNat, by omega, by simp only [byteAddr]; omega⟩
  | big => exact ⟨(a + k - 1 - c).toNat, by omega, by simp only [byteAddr]; omega⟩

theorem bitLoc_eq (e : Endian) (k : Nat) (a : Int) (i q : Nat) (hq : q < 8) :
    bitLoc e k a (8 * i + q) = byteAddr e k a i * ((8 : Nat) : Int) + (q : Int) := by
  have h1 : (8 * i + q) / 8 = i := by omega
  have h2 : (8 * i + q) % 8 = q := by omega
  cases e with
  | little => simp only [bitLoc, byteAddr]; omega
  | big => simp only [bitLoc, byteAddr]; rw [h1, h2]; omega

theorem bitLoc_inj {e : Endian} {k : Nat} {a : Int} {p q : Nat} (h : bitLoc e k a p = bitLoc e k a q) : p = q := by
  cases e <;> simp only [bitLoc] at h <;> omega

/-- Every bit of the bytes of a word is one of its bits. -/
theorem bitLoc_surj (e : Endian) {k : Nat} {a c : Int} (h1 : a * 8 ≤ c) (h2 : c < (a + (k : Int)) * 8) :
    ∃ p, p < 8 * k ∧ c = bitLoc e k a p := by
  obtain ⟨i, hi, hb⟩ := byteAddr_surj e (k := k) (a := a) (c := c / 8) (by omega) (by omega)
  refine ⟨8 * i + (c % 8).toNat, by omega, ?_⟩
  rw [bitLoc_eq e k a i _ (by omega), ← hb]
  omega

theorem bitLoc_range {e : Endian} {k : Nat} {a : Int} {p : Nat} (h : p < 8 * k) :
    a * 8 ≤ bitLoc e k a p ∧ bitLoc e k a p < (a + (k : Int)) * 8 := by
  cases e <;> simp only [bitLoc] <;> omega

theorem wp_loadBytesOf (e : Endian) (k : Nat) (a : Int) {m : Mem 8} (hm : WordMapped m k a) :
    ∀ (n : Nat), n ≤ k → wp (loadBytesOf e k a n) m (fun r m' => m' = m ∧ r < 2 ^ (8 * n) ∧
      ∀ p, p < 8 * n → bitAt m (bitLoc e k a p) = some (r.testBit p))
  | 0, _ => by
    unfold loadBytesOf
    rw [wp_pure]
    exact ⟨rfl, by decide, fun p hp => by omega⟩
  | n + 1, hn => by
    unfold loadBytesOf
    rw [wp_bind]
    obtain ⟨r, m1, hr, rfl, hlt, hbits⟩ := wp_loadBytesOf e k a hm n (by omega)
    refine ⟨r, m1, hr, ?_⟩
    obtain ⟨h1, h2⟩ := byteAddr_range (e := e) (a := a) (show n < k by omega)
    obtain ⟨b, hb⟩ := Option.isSome_iff_exists.mp (hm _ h1 h2)
    rw [wp_bind, wp_load]
    refine ⟨b, hb, ?_⟩
    rw [wp_pure]
    have e256 : (256 : Nat) ^ n = 2 ^ (8 * n) := by rw [Nat.pow_mul]
    have hbl : b.toNat < 2 ^ 8 := b.isLt
    rw [e256, Nat.add_comm, Nat.mul_comm]
    refine ⟨rfl, ?_, ?_⟩
    · have : 2 ^ (8 * (n + 1)) = 2 ^ (8 * n) * 2 ^ 8 := by rw [Nat.mul_succ, Nat.pow_add]
      rw [this]
      have h3 : 2 ^ (8 * n) * (b.toNat + 1) ≤ 2 ^ (8 * n) * 2 ^ 8 := Nat.mul_le_mul_left _ hbl
      rw [Nat.mul_add] at h3
      omega
    · intro p hp
      rw [Nat.testBit_two_pow_mul_add _ hlt]
      by_cases h : p < 8 * n
      · rw [if_pos h]; exact hbits p h
      · rw [if_neg h]
        obtain ⟨q, hq, rfl⟩ : ∃ q, q < 8 ∧ p = 8 * n + q := ⟨p - 8 * n, by omega, by omega⟩
        rw [bitLoc_eq e k a n q hq, bitAt_word _ _ _ hq, hb]
        simp [BitVec.getLsbD]

theorem wp_loadWord {e : Endian} {k : Nat} {a : Int} {m : Mem 8} {Q : BitVec (8 * k) → Mem 8 → Prop} (hm : WordMapped m k a)
    (hQ : ∀ x, (∀ p, p < 8 * k → bitAt m (bitLoc e k a p) = some (x.getLsbD p)) → Q x m) : wp (loadWord e k a) m Q := by
  unfold loadWord
  rw [wp_bind]
  obtain ⟨r, m1, hr, rfl, hlt, hbits⟩ := wp_loadBytesOf e k a hm k (Nat.le_refl _)
  refine ⟨r, m1, hr, ?_⟩
  beta_reduce
  rw [wp_pure]
  refine hQ _ fun p hp => ?_
  rw [hbits p hp, BitVec.getLsbD_ofNat]
  simp [hp]

theorem wp_storeBytesOf (e : Endian) (k : Nat) (a : Int) (x : Nat) {m : Mem 8} (hm : WordMapped m k a) :
    ∀ (n : Nat), n ≤ k → wp (storeBytesOf e k a x n) m (fun _ m' => WordMapped m' k a ∧
      (∀ p, p < 8 * n → bitAt m' (bitLoc e k a p) = some (x.testBit p)) ∧
      ∀ c, (∀ p, p < 8 * n → c ≠ bitLoc e k a p) → bitAt m' c = bitAt m c)
  | 0, _ => by
    unfold storeBytesOf
    rw [wp_pure]
    exact ⟨hm, fun p hp => by omega, fun c _ => rfl⟩
  | n + 1, hn => by
    unfold storeBytesOf
    rw [wp_bind]
    obtain ⟨_, m1, hr, hm1, hbits, hframe⟩ := wp_storeBytesOf e k a x hm n (by omega)
    refine ⟨_, m1, hr, ?_⟩
    obtain ⟨h1, h2⟩ := byteAddr_range (e := e) (a := a) (show n < k by omega)
    rw [wp_store]
    refine ⟨Option.isSome_iff_exists.mp (hm1 _ h1 h2), ?_, ?_, ?_⟩
    · intro c hc1 hc2
      unfold Mem.set
      split
      · rfl
      · exact hm1 c hc1 hc2
    · intro p hp
      obtain ⟨i, q, hq, rfl⟩ : ∃ i q, q < 8 ∧ p = 8 * i + q := ⟨p / 8, p % 8, by omega, by omega⟩
      by_cases h : i = n
      · subst h
        rw [bitLoc_eq e k a i q hq, bitAt_word _ _ _ hq]
        simp only [Mem.set, if_true, Option.map_some]
        rw [BitVec.getLsbD_ofNat, show (256 : Nat) ^ i = 2 ^ (8 * i) by rw [Nat.pow_mul], Nat.testBit_div_two_pow]
        simp [hq, Nat.add_comm]
      · rw [← hbits (8 * i + q) (by omega), bitLoc_eq e k a i q hq, bitAt_word _ _ _ hq, bitAt_word _ _ _ hq]
        unfold Mem.set
        rw [if_neg (fun hc => h (byteAddr_inj hc))]
    · intro c hc
      rw [← hframe c (fun p hp => hc p (by omega))]
      obtain ⟨b, q, hq, rfl⟩ := word_decomp (w := 8) (by decide) c
      rw [bitAt_word _ _ _ hq, bitAt_word _ _ _ hq]
      unfold Mem.set
      rw [if_neg]
      intro hb
      exact hc (8 * n + q) (by omega) (by rw [bitLoc_eq e k a n q hq, hb])

theorem wp_storeWord {e : Endian} {k : Nat} {a : Int} {x : BitVec (8 * k)} {m : Mem 8} {Q : Unit → Mem 8 → Prop}
    (hm : WordMapped m k a)
    (hQ : ∀ m', (∀ p, p < 8 * k → bitAt m' (bitLoc e k a p) = some (x.getLsbD p)) →
      (∀ c, (∀ p, p < 8 * k → c ≠ bitLoc e k a p) → bitAt m' c = bitAt m c) → Q () m') : wp (storeWord e k a x) m Q := by
  unfold storeWord
  obtain ⟨_, m1, hr, _, hbits, hframe⟩ := wp_storeBytesOf e k a x.toNat hm k (Nat.le_refl _)
  exact ⟨_, m1, hr, hQ m1 hbits hframe⟩

/-- Bytes of the word are missing. -/
theorem loadBytesOf_fail {e : Endian} {k : Nat} {a : Int} {m : Mem 8} :
    ∀ (n : Nat), (∃ i, i < n ∧ m (byteAddr e k a i) = none) → loadBytesOf e k a n m = .error .outOfBounds
  | 0, h => by obtain ⟨i, hi, _⟩ := h; omega
  | n + 1, h => by
    unfold loadBytesOf
    by_cases h1 : ∃ i, i < n ∧ m (byteAddr e k a i) = none
    · show (loadBytesOf e k a n m >>= fun p => _) = _
      rw [loadBytesOf_fail n h1]; rfl
    · obtain ⟨i, hi, hn⟩ := h
      have : i = n := by
        by_contra hc
        exact h1 ⟨i, by omega, hn⟩
      subst this
      have h2 : ∀ n', n' ≤ i → ∃ r, loadBytesOf e k a n' m = .ok (r, m) := by
        intro n'
        induction n' with
        | zero => exact fun _ => ⟨0, rfl⟩
        | succ n' ih =>
          intro hle
          obtain ⟨r, hr⟩ := ih (by omega)
          cases hb : m (byteAddr e k a n') with
          | none => exact absurd ⟨n', by omega, hb⟩ h1
          | some b =>
            refine ⟨r + b.toNat * 256 ^ n', ?_⟩
            unfold loadBytesOf
            show (loadBytesOf e k a n' m >>= fun p => _) = _
            rw [hr]
            show (load (byteAddr e k a n') m >>= fun p => _) = _
            unfold load
            rw [hb]; rfl
      obtain ⟨r, hr⟩ := h2 i (Nat.le_refl _)
      show (loadBytesOf e k a i m >>= fun p => _) = _
      rw [hr]
      show (load (byteAddr e k a i) m >>= fun p => _) = _
      unfold load
      rw [hn]; rfl

theorem loadWord_fail {e : Endian} {k : Nat} {a : Int} {m : Mem 8} (h : ¬ WordMapped m k a) :
    loadWord e k a m = .error .outOfBounds := by
  have : ∃ i, i < k ∧ m (byteAddr e k a i) = none := by
    by_contra hc
    apply h
    intro c h1 h2
    obtain ⟨i, hi, rfl⟩ := byteAddr_surj e h1 h2
    cases hm : m (byteAddr e k a i) with
    | none => exact absurd ⟨i, hi, hm⟩ hc
    | some b => rfl
  unfold loadWord
  show (loadBytesOf e k a k m >>= fun p => _) = _
  rw [loadBytesOf_fail k this]; rfl

theorem loadWord_ok {e : Endian} {k : Nat} {a : Int} {m : Mem 8} (h : WordMapped m k a) :
    ∃ x, loadWord e k a m = .ok (x, m) ∧ ∀ p, p < 8 * k → bitAt m (bitLoc e k a p) = some (x.getLsbD p) := by
  obtain ⟨x, m', h1, rfl, h2⟩ := wp_loadWord (e := e) (Q := fun x m' => m' = m ∧ ∀ p, p < 8 * k →
    bitAt m (bitLoc e k a p) = some (x.getLsbD p)) h fun x hx => ⟨rfl, hx⟩
  exact ⟨x, h1, h2⟩

theorem storeBytesOf_fail {e : Endian} {k : Nat} {a : Int} {x : Nat} :
    ∀ (n : Nat) (m : Mem 8), (∃ i, i < n ∧ m (byteAddr e k a i) = none) → storeBytesOf e k a x n m = .error .outOfBounds
  | 0, _, h => by obtain ⟨i, hi, _⟩ := h; omega
  | n + 1, m, h => by
    unfold storeBytesOf
    by_cases h1 : ∃ i, i < n ∧ m (byteAddr e k a i) = none
    · show (storeBytesOf e k a x n m >>= fun p => _) = _
      rw [storeBytesOf_fail n m h1]; rfl
    · obtain ⟨i, hi, hn⟩ := h
      have : i = n := by
        by_contra hc
        exact h1 ⟨i, by omega, hn⟩
      subst this
      have h2 : ∀ n', n' ≤ i → ∃ m', storeBytesOf e k a x n' m = .ok ((), m') ∧ ∀ c, (m' c).isSome = (m c).isSome := by
        intro n'
        induction n' with
        | zero => exact fun _ => ⟨m, rfl, fun _ => rfl⟩
        | succ n' ih =>
          intro hle
          obtain ⟨m', hr, hs⟩ := ih (by omega)
          cases hb : m' (byteAddr e k a n') with
          | none =>
            have := hs (byteAddr e k a n')
            rw [hb] at this
            exact absurd ⟨n', by omega, by simpa using this⟩ h1
          | some b =>
            refine ⟨m'.set (byteAddr e k a n') (BitVec.ofNat 8 (x / 256 ^ n')), ?_, ?_⟩
            · unfold storeBytesOf
              show (storeBytesOf e k a x n' m >>= fun p => _) = _
              rw [hr]
              show store _ _ m' = _
              unfold store
              rw [hb]
            · intro c
              unfold Mem.set
              split
              · rename_i h; rw [h, ← hs, hb]; rfl
              · exact hs c
      obtain ⟨m', hr, hs⟩ := h2 i (Nat.le_refl _)
      show (storeBytesOf e k a x i m >>= fun p => _) = _
      rw [hr]
      show store _ _ m' = _
      have : m' (byteAddr e k a i) = none := by
        have := hs (byteAddr e k a i)
        rw [hn] at this
        simpa using this
      unfold store
      rw [this]

theorem storeWord_fail {e : Endian} {k : Nat} {a : Int} {m : Mem 8} {x : BitVec (8 * k)} (h : ¬ WordMapped m k a) :
    storeWord e k a x m = .error .outOfBounds := by
  refine storeBytesOf_fail k m ?_
  by_contra hc
  apply h
  intro c h1 h2
  obtain ⟨i, hi, rfl⟩ := byteAddr_surj e h1 h2
  cases hm : m (byteAddr e k a i) with
  | none => exact absurd ⟨i, hi, hm⟩ hc
  | some b => rfl

theorem wordView_some {e : Endian} {k : Nat} {base j : Int} {m : Mem 8} (h : WordMapped m k (base + (k : Int) * j)) :
    ∃ x, wordView e k base m j = some x ∧ loadWord e k (base + (k : Int) * j) m = .ok (x, m) ∧
      ∀ p, p < 8 * k → bitAt m (bitLoc e k (base + (k : Int) * j) p) = some (x.getLsbD p) := by
  obtain ⟨x, h1, h2⟩ := loadWord_ok (e := e) h
  exact ⟨x, by unfold wordView; rw [h1], h1, h2⟩

theorem wordView_none {e : Endian} {k : Nat} {base j : Int} {m : Mem 8} (h : ¬ WordMapped m k (base + (k : Int) * j)) :
    wordView e k base m j = none := by
  unfold wordView
  rw [loadWord_fail h]

/-- A bit is mapped before and after a change of bits. -/
theorem WordMapped.of_bits {m m' : Mem 8} {k : Nat} {a : Int} (hm : WordMapped m k a)
    (h : ∀ i, (bitAt m i).isSome → (bitAt m' i).isSome) : WordMapped m' k a := by
  intro c h1 h2
  have h3 := hm c h1 h2
  have h4 := h (c * ((8 : Nat) : Int) + ((0 : Nat) : Int)) (by rw [bitAt_word _ _ _ (by decide)]; simpa using h3)
  rw [bitAt_word _ _ _ (by decide)] at h4
  simpa using h4

theorem OneBit.mapped {m m' : Mem 8} {c : Int} {b : Bool} (h : OneBit m m' c b) {k : Nat} {a : Int} (hm : WordMapped m k a) :
    WordMapped m' k a := by
  refine hm.of_bits fun i hi => ?_
  rw [h i]
  split
  · rfl
  · exact hi

variable {k : Nat}

theorem wp_refReadB {e : Endian} {r : BitRef (8 * k)} {c : Int} {m : Mem 8} {b : Bool} {Q : Bool → Mem 8 → Prop}
    (hr : r.AtB e c) (hm : WordMapped m k r.ptr) (hb : bitAt m c = some b) (hQ : Q b m) : wp (r.toBoolB e) m Q := by
  obtain ⟨p, hp, hk, rfl⟩ := hr
  unfold BitRef.toBoolB
  rw [wp_bind]
  refine wp_loadWord (e := e) hm fun x hx => ?_
  rw [wp_pure, hk]
  have h1 : x.getLsbD p = b := by
    have := (hx p hp).symm.trans hb
    simpa using this
  rw [show decide (x &&& (1#(8 * k) <<< p) ≠ 0#(8 * k)) = b by
    rw [← h1, Bool.eq_iff_iff, decide_eq_true_eq, and_mask_ne_zero x p hp]]
  exact hQ

theorem wp_refRmwB {e : Endian} {r : BitRef (8 * k)} {c : Int} {m : Mem 8} {b v : Bool} {f : BitVec (8 * k) → BitVec (8 * k)}
    {Q : Unit → Mem 8 → Prop} (hr : r.AtB e c) (hm : WordMapped m k r.ptr) (hb : bitAt m c = some b)
    (hf : ∀ x p, p < 8 * k → r.mask = 1#(8 * k) <<< p → x.getLsbD p = b →
      ∀ i, i < 8 * k → (f x).getLsbD i = if i = p then v else x.getLsbD i)
    (hQ : ∀ m', OneBit m m' c v → Q () m') :
    wp (do let x ← loadWord e k r.ptr; storeWord e k r.ptr (f x)) m Q := by
  obtain ⟨p, hp, hk, rfl⟩ := hr
  rw [wp_bind]
  refine wp_loadWord (e := e) hm fun x hx => ?_
  have h1 : x.getLsbD p = b := by
    have := (hx p hp).symm.trans hb
    simpa using this
  have hf' := hf x p hp hk h1
  refine wp_storeWord hm fun m' hbits hframe => hQ m' ?_
  intro i
  by_cases hi : ∃ q, q < 8 * k ∧ i = bitLoc e k r.ptr q
  · obtain ⟨q, hq, rfl⟩ := hi
    rw [hbits q hq, hf' q hq]
    by_cases h : q = p
    · subst h; simp
    · rw [if_neg h, if_neg (fun hc => h (bitLoc_inj hc)), hx q hq]
  · rw [hframe i (fun q hq hc => hi ⟨q, hq, hc⟩), if_neg]
    intro hc
    exact hi ⟨p, hp, hc⟩

theorem wp_refSetB {e : Endian} {r : BitRef (8 * k)} {c : Int} {m : Mem 8} {Q : Unit → Mem 8 → Prop}
    (hr : r.AtB e c) (hm : WordMapped m k r.ptr) (hb : (bitAt m c).isSome) (hQ : ∀ m', OneBit m m' c true → Q () m') :
    wp (r.setB e) m Q := by
  obtain ⟨b, hb⟩ := Option.isSome_iff_exists.mp hb
  refine wp_refRmwB hr hm hb ?_ hQ
  intro x p hp hk hx i hi
  rw [hk, BitVec.getLsbD_or, getLsbD_oneShl p i hi]
  by_cases h : i = p <;> simp [h]

theorem wp_refResetB {e : Endian} {r : BitRef (8 * k)} {c : Int} {m : Mem 8} {Q : Unit → Mem 8 → Prop}
    (hr : r.AtB e c) (hm : WordMapped m k r.ptr) (hb : (bitAt m c).isSome) (hQ : ∀ m', OneBit m m' c false → Q () m') :
    wp (r.resetB e) m Q := by
  obtain ⟨b, hb⟩ := Option.isSome_iff_exists.mp hb
  refine wp_refRmwB hr hm hb ?_ hQ
  intro x p hp hk hx i hi
  rw [hk, BitVec.getLsbD_and, BitVec.getLsbD_not, getLsbD_oneShl p i hi]
  by_cases h : i = p <;> simp [h, hi]

theorem wp_refFlipB {e : Endian} {r : BitRef (8 * k)} {c : Int} {m : Mem 8} {b : Bool} {Q : Unit → Mem 8 → Prop}
    (hr : r.AtB e c) (hm : WordMapped m k r.ptr) (hb : bitAt m c = some b) (hQ : ∀ m', OneBit m m' c (!b) → Q () m') :
    wp (r.flipB e) m Q := by
  refine wp_refRmwB hr hm hb ?_ hQ
  intro x p hp hk hx i hi
  rw [hk, BitVec.getLsbD_xor, getLsbD_oneShl p i hi]
  by_cases h : i = p
  · subst h; simp [hx]
  · simp [h]

end BitLib
