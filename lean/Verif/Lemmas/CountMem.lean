import Verif.Model.CountMem
import Verif.Lemmas.Query
import Verif.Lemmas.Bytes
import Verif.Lemmas.Popcnt2
/- `count` composed with libpopcnt. -/
namespace BitLib
variable {w u : Nat}

theorem toInt_small {n : Nat} (h : n < 2 ^ 63) : (BitVec.ofNat 64 n).toInt = (n : Int) := by
  rw [BitVec.toInt_eq_toNat_of_lt (by rw [BitVec.toNat_ofNat]; omega), BitVec.toNat_ofNat, Nat.mod_eq_of_lt (by omega)]

theorem toInt_sub_small {a b : Nat} (ha : a < 2 ^ 63) (hb : b < 2 ^ 63) :
    (BitVec.ofInt 64 (a : Int) - BitVec.ofNat 64 b).toInt = (a : Int) - b := by
  rw [BitVec.ofInt_natCast, BitVec.toInt_sub, toInt_small ha, toInt_small hb]
  exact Int.bmod_eq_of_le (by omega) (by omega)

/-- The first whole word of the middle of a range. -/
def midFirst (first : BitIter w) : Int := if first.pos ≠ 0 then first.base + 1 else first.base

/-- `popcnt` counts the words of the middle, and `extra` bits more. -/
theorem wp_countBy (S : ShiftSem w) {ld : Int → M u (BitVec w)} {pc : Int → Nat → M u (BitVec 64)} {first last : BitIter w} {v : Bool}
    {m : Mem u} {W : Mem w} {extra : Nat} {Q : Int → Mem u → Prop}
    (hld : ∀ j x, ¬ (midFirst first ≤ j ∧ j < last.base) → W j = some x → ld j m = .ok (x, m))
    (hpc : first.base ≠ last.base → ∀ N : Nat, last.base = midFirst first + N →
      pc (midFirst first) N m = .ok (BitVec.ofNat 64 (countIn W true (midFirst first * w) (N * w) + extra), m))
    (hx : first.base = last.base → extra = 0)
    (hf : first.Valid) (hl : last.Valid) (hlt : first.addr < last.addr) (hm : Mapped W first.addr last.addr)
    (hsmall : (last.addr - first.addr) + extra < 2 ^ 63)
    (hQ : Q (if v then countIn W true first.addr (last.addr - first.addr).toNat + extra
      else countIn W false first.addr (last.addr - first.addr).toNat - extra) m) :
    wp (countBy S ld pc first last v) m Q := by
  have hw : 0 < w := Nat.lt_of_le_of_lt (Nat.zero_le _) hf
  have hf' : first.pos < w := hf
  have hl' : last.pos < w := hl
  have hfa : first.addr = first.base * w + first.pos := rfl
  have hla : last.addr = last.base * w + last.pos := rfl
  have hbb := base_le_of_addr hl (Int.le_of_lt hlt)
  obtain ⟨n, hn⟩ : ∃ n : Nat, last.addr = first.addr + n := ⟨(last.addr - first.addr).toNat, by omega⟩
  have hmn : Mapped W first.addr (first.addr + n) := by rwa [hn] at hm
  rw [show (last.addr - first.addr).toNat = n by omega] at hQ
  have hword : ∀ (b i : Int), ¬ (midFirst first ≤ b ∧ b < last.base) → b * (w : Int) ≤ i → i < b * (w : Int) + w → first.addr ≤ i → i < last.addr →
      ∃ x, ld b m = .ok (x, m) ∧ ∀ p : Nat, p < w → bitAt W (b * (w : Int) + p) = some (x.getLsbD p) := by
    intro b i h0 h1 h2 h3 h4
    obtain ⟨x, hx⟩ := mapped_word hw h1 h2 (hm i h3 h4)
    refine ⟨x, hld b x h0 hx, fun p hp => ?_⟩
    rw [bitAt_word _ _ _ hp, hx]
    rfl
  unfold countBy
  rw [wp_bind]
  unfold assertM
  rw [if_pos (by rw [BitIter.diff_eq]; omega), wp_pure]
  have hc := countIn_compl W first.addr n hmn
  have fin : ∀ r : BitVec 64, r = BitVec.ofNat 64 (countIn W true first.addr n + extra) →
      wp (pure (if v then r.toInt else (BitVec.ofInt 64 (last.diff first) - r).toInt)) m Q := by
    intro r hr
    rw [wp_pure, hr]
    cases v
    · rw [BitIter.diff_eq, show last.addr - first.addr = ((n : Nat) : Int) by omega]
      simp only [Bool.false_eq_true, if_false]
      rw [toInt_sub_small (by omega) (by omega),
        show (n : Int) - ((countIn W true first.addr n + extra : Nat) : Int) = (countIn W false first.addr n : Int) - extra by omega]
      simpa using hQ
    · simp only [if_true]
      rw [toInt_small (by omega)]
      simpa using hQ
  dsimp only
  rw [wp_bind]
  by_cases hbase : first.base ≠ last.base
  · rw [if_pos hbase]
    have hb1 : first.base + 1 ≤ last.base := by omega
    have hb2 := base_lt_mul (w := w) (a := first.base) (b := last.base) (by omega)
    have e1 : (first.base + 1) * (w : Int) = first.base * w + w := by ring
    have rest : ∀ (r0 : BitVec 64) (k : Nat), midFirst first ≤ last.base → midFirst first * (w : Int) = first.addr + k →
        r0 = BitVec.ofNat 64 (countIn W true first.addr k) →
        wp (do
          let n ← wordDist (midFirst first) last.base
          let r1 ← pc (midFirst first) n
          if last.pos ≠ 0 then do
            let x ← ld last.base
            let x ← lift (S.shl x (w - last.pos))
            pure (r0 + r1 + BitVec.ofNat 64 (popcnt x))
          else pure (r0 + r1) : M u (BitVec 64)) m
          (fun r m' => wp (pure (if v then r.toInt else (BitVec.ofInt 64 (last.diff first) - r).toInt)) m' Q) := by
      intro r0 k hit hik hr0
      rw [wp_bind, wp_wordDist]
      refine ⟨hit, ?_⟩
      obtain ⟨N, hN⟩ : ∃ N : Nat, last.base = midFirst first + N := ⟨(last.base - midFirst first).toNat, by omega⟩
      have hNw : last.base * (w : Int) = midFirst first * w + N * w := by rw [hN]; ring
      have hNpos : 0 ≤ (N : Int) * w := Int.mul_nonneg (by omega) (by omega)
      have hNN : ((N * w : Nat) : Int) = N * w := by push_cast; ring
      rw [show (last.base - midFirst first).toNat = N by omega, wp_bind]
      refine ⟨_, m, hpc hbase N hN, ?_⟩
      have hsum : r0 + BitVec.ofNat 64 (countIn W true (midFirst first * w) (N * w) + extra) =
          BitVec.ofNat 64 (countIn W true first.addr (k + N * w) + extra) := by
        rw [countIn_add, hr0, hik, ← BitVec.ofNat_add]
        congr 1
        omega
      beta_reduce
      by_cases hlp : last.pos ≠ 0
      · rw [if_pos hlp, wp_bind]
        obtain ⟨x, hx1, hx⟩ := hword last.base (last.base * w) (by omega) (by omega) (by omega) (by omega) (by omega)
        refine ⟨x, m, hx1, ?_⟩
        beta_reduce
        rw [wp_bind, S.shl_ok (by omega), wp_lift_ok, wp_pure]
        have hpx : popcnt (x <<< (w - last.pos)) = countIn W true (last.base * w) last.pos := by
          refine popcnt_high W _ _ _ (by omega) ?_ ?_
          · intro i hi
            rw [hx i (by omega), BitVec.getLsbD_shiftLeft]
            simp [show w - last.pos + i < w by omega]
          · intro i hi
            rw [BitVec.getLsbD_shiftLeft]
            simp [hi]
        refine fin _ ?_
        rw [hsum, hpx, show last.base * (w : Int) = first.addr + ((k + N * w : Nat) : Int) by push_cast; omega, ← BitVec.ofNat_add]
        congr 1
        rw [show countIn W true first.addr n = countIn W true first.addr (k + N * w + last.pos) by congr 1; omega,
          countIn_add W true first.addr (k + N * w) last.pos]
        omega
      · rw [if_neg hlp, wp_pure]
        refine fin _ ?_
        rw [hsum, show k + N * w = n by omega]
    by_cases hfp : first.pos ≠ 0
    · have hmid : midFirst first = first.base + 1 := by unfold midFirst; rw [if_pos hfp]
      rw [if_pos hfp, wp_bind, wp_bind]
      obtain ⟨x, hx1, hx⟩ := hword first.base first.addr (by omega) (by omega) (by omega) (by omega) (by omega)
      refine ⟨x, m, hx1, ?_⟩
      beta_reduce
      rw [wp_bind, S.shr_ok hf', wp_lift_ok, wp_pure]
      have hpx : popcnt (x >>> first.pos) = countIn W true first.addr (w - first.pos) := by
        refine popcnt_low W _ _ _ (by omega) ?_ ?_
        · intro i hi
          rw [hfa, show first.base * (w : Int) + first.pos + i = first.base * w + ((first.pos + i : Nat) : Int) by omega,
            hx _ (by omega), BitVec.getLsbD_ushiftRight]
        · intro i hi
          rw [BitVec.getLsbD_ushiftRight, BitVec.getLsbD_of_ge _ _ (by omega)]
      have := rest (BitVec.ofNat 64 (popcnt (x >>> first.pos))) (w - first.pos) (by omega) (by rw [hmid]; omega) (by rw [hpx])
      rw [hmid] at this
      exact this
    · have hmid : midFirst first = first.base := by unfold midFirst; rw [if_neg hfp]
      rw [if_neg hfp, wp_bind, wp_pure]
      have := rest 0#64 0 (by omega) (by rw [hmid]; omega) (by rw [countIn_zero])
      rw [hmid] at this
      exact this
  · rw [if_neg hbase, wp_bind]
    have hbe : first.base = last.base := by omega
    have hx0 := hx hbe
    have hmid : first.base ≤ midFirst first := by unfold midFirst; split_ifs <;> omega
    obtain ⟨x, hx1, hx⟩ := hword first.base first.addr (by omega) (by omega) (by omega) (by omega) (by omega)
    refine ⟨x, m, hx1, ?_⟩
    beta_reduce
    have hpp : last.pos = first.pos + n := by rw [← hbe] at hla; omega
    rw [wp_bind, subSize_le (by omega), show last.pos - first.pos = n by omega]
    obtain ⟨y, hy1, hy⟩ := wp_lift.1 (wp_bextr (m := W) S (x := x) hf' (lt_pw S (show n < w by omega))
      (Q := fun y _ => ∀ i, i < w → y.getLsbD i = (decide (i < n) && x.getLsbD (first.pos + i))) fun _ h => h)
    rw [hy1, wp_lift_ok, wp_pure]
    have hpx : popcnt y = countIn W true first.addr n := by
      refine popcnt_low W _ _ _ (by omega) ?_ ?_
      · intro i hi
        rw [hy i (by omega), hfa,
          show first.base * (w : Int) + first.pos + i = first.base * w + ((first.pos + i : Nat) : Int) by omega,
          hx _ (by omega)]
        simp [hi]
      · intro i hi
        by_cases hiw : i < w
        · rw [hy i hiw]; simp [show ¬ i < n by omega]
        · exact BitVec.getLsbD_of_ge _ _ (by omega)
    refine fin _ ?_
    rw [hpx, hx0, Nat.add_zero]

/-! ### Bits of words and bits of their bytes -/

theorem popcntBits_append (x : BitVec w) (y : BitVec u) (a n : Nat) (h : ∀ i, i < n → x.getLsbD (a + i) = y.getLsbD i) :
    popcntBits x (a + n) = popcntBits x a + popcntBits y n := by
  induction n with
  | zero => rfl
  | succ n ih =>
    rw [← Nat.add_assoc, popcntBits, ih fun i hi => h i (by omega), popcntBits, h n (by omega), Nat.add_assoc]

/-- The set bits of a word are the set bits of its bytes, in either byte order. -/
theorem cnt_word {e : Endian} {k : Nat} {a : Int} {m : Mem 8} {x : BitVec (8 * k)} (hm : WordMapped m k a)
    (hx : ∀ p, p < 8 * k → bitAt m (bitLoc e k a p) = some (x.getLsbD p)) : popcntBits x (8 * k) = cntBytes m a k := by
  have key : ∀ i, i ≤ k → popcntBits x (8 * i) =
      cntBytes m (match e with | .little => a | .big => a + (k : Int) - (i : Int)) i := by
    intro i
    induction i with
    | zero => intro _; cases e <;> rfl
    | succ i ih =>
      intro hi
      have hr := byteAddr_range (e := e) (k := k) (a := a) (i := i) (by omega)
      obtain ⟨b, hb⟩ := Option.isSome_iff_exists.1 (hm (byteAddr e k a i) hr.1 hr.2)
      have hbits : ∀ q, q < 8 → x.getLsbD (8 * i + q) = b.getLsbD q := by
        intro q hq
        have h1 := hx (8 * i + q) (by omega)
        rw [bitLoc_eq e k a i q hq, bitAt_word _ _ _ hq, hb] at h1
        simpa using h1.symm
      rw [show 8 * (i + 1) = 8 * i + 8 by omega, popcntBits_append x b (8 * i) 8 hbits, ih (by omega)]
      cases e with
      | little => exact (cntBytes_succ hb).symm
      | big =>
        have h1 : cntBytes m (a + (k : Int) - ((i + 1 : Nat) : Int)) 1 = popcntBits b 8 := by
          refine cntBytes_one ?_
          rw [← hb]
          congr 1
          unfold byteAddr
          push_cast
          ring
        show cntBytes m (a + (k : Int) - (i : Int)) i + popcntBits b 8 = cntBytes m (a + (k : Int) - ((i + 1 : Nat) : Int)) (i + 1)
        rw [Nat.add_comm i 1, cntBytes_add, Nat.add_comm 1 i, h1, Nat.add_comm]
        congr 2
        push_cast
        ring
  have := key k (Nat.le_refl _)
  rw [this]
  cases e with
  | little => rfl
  | big =>
    show cntBytes m (a + (k : Int) - (k : Int)) k = _
    rw [Int.add_sub_cancel]

/-- The set bits of `n` words are the set bits of their bytes. -/
theorem cnt_words {e : Endian} {k : Nat} {base j : Int} {m : Mem 8} : ∀ (n : Nat),
    (∀ i : Nat, i < n → WordMapped m k (base + (k : Int) * (j + i))) →
    countIn (wordView e k base m) true (j * ((8 * k : Nat) : Int)) (n * (8 * k)) = cntBytes m (base + (k : Int) * j) (k * n) := by
  intro n
  induction n with
  | zero => intro _; rw [Nat.zero_mul, Nat.mul_zero]; rfl
  | succ n ih =>
    intro h
    obtain ⟨x, h1, _, h2⟩ := wordView_some (e := e) (h n (by omega))
    rw [show (n + 1) * (8 * k) = n * (8 * k) + 8 * k from Nat.succ_mul _ _, countIn_add, ih fun i hi => h i (by omega), Nat.mul_succ, cntBytes_add]
    congr 1
    have e1 : j * ((8 * k : Nat) : Int) + ((n * (8 * k) : Nat) : Int) = (j + (n : Int)) * ((8 * k : Nat) : Int) := by push_cast; ring
    have e2 : base + (k : Int) * j + ((k * n : Nat) : Int) = base + (k : Int) * (j + (n : Int)) := by push_cast; ring
    rw [e1, e2, ← cnt_word (h n (by omega)) h2]
    refine (popcnt_low (wordView e k base m) x _ (8 * k) (Nat.le_refl _) ?_ ?_).symm
    · intro i hi
      rw [bitAt_word _ _ _ hi, h1]
      rfl
    · intro i hi
      exact BitVec.getLsbD_of_ge x i hi

/-! ### Empty ranges and failures -/

theorem countBy_empty (S : ShiftSem w) {ld : Int → M u (BitVec w)} {pc : Int → Nat → M u (BitVec 64)} {first : BitIter w} {v : Bool}
    {m : Mem u} {x : BitVec w} (hf : first.Valid) (h : ld first.base m = .ok (x, m)) : countBy S ld pc first first v m = .ok (0, m) := by
  have hw : 0 < w := Nat.lt_of_le_of_lt (Nat.zero_le _) hf
  have hf' : first.pos < w := hf
  have : wp (countBy S ld pc first first v) m (fun r m' => r = 0 ∧ m' = m) := by
    unfold countBy
    rw [wp_bind]
    unfold assertM
    rw [if_pos (by rw [BitIter.diff_eq]; omega), wp_pure]
    dsimp only
    rw [wp_bind, if_neg (fun h => h rfl), wp_bind]
    refine ⟨x, m, h, ?_⟩
    beta_reduce
    rw [wp_bind, subSize_le (by omega), Nat.sub_self]
    obtain ⟨y, hy1, hy⟩ := wp_lift.1 (wp_bextr (m := (fun _ => none : Mem w)) S (x := x) hf' (lt_pw S hw)
      (Q := fun y _ => ∀ i, i < w → y.getLsbD i = (decide (i < 0) && x.getLsbD (first.pos + i))) fun _ h => h)
    rw [hy1, wp_lift_ok, wp_pure, wp_pure, BitIter.diff_eq]
    have hy0 : y = 0#w := BitVec.eq_of_getLsbD_eq fun i hi => by rw [hy i hi]; simp
    have h0 : popcnt (0#w) = 0 := by
      unfold popcnt
      have : ∀ n, popcntBits (0#w) n = 0 := by
        intro n
        induction n with
        | zero => rfl
        | succ n ih => rw [popcntBits, ih]; simp
      exact this _
    rw [hy0, h0, Int.sub_self]
    cases v <;> exact ⟨by decide, rfl⟩
  obtain ⟨r, m', e, h1, h2⟩ := this
  rw [e, h1, h2]

theorem countBy_empty_fails (S : ShiftSem w) {ld : Int → M u (BitVec w)} {pc : Int → Nat → M u (BitVec 64)} {first : BitIter w} {v : Bool}
    {m : Mem u} {er : UB} (h : ld first.base m = .error er) : countBy S ld pc first first v m = .error er := by
  have : fails (countBy S ld pc first first v) m er := by
    unfold countBy
    refine fails_bind ?_
    unfold assertM
    rw [if_pos (by rw [BitIter.diff_eq]; omega), wp_pure]
    dsimp only
    refine fails_bind_left ?_
    rw [if_neg (fun h => h rfl)]
    exact fails_bind_left h
  exact this

/-- `popcnt` fails on the words of the middle. -/
theorem countBy_fails (S : ShiftSem w) {ld : Int → M u (BitVec w)} {pc : Int → Nat → M u (BitVec 64)} {first last : BitIter w} {v : Bool}
    {m : Mem u} {W : Mem w} {er : UB} (hld : ∀ j x, W j = some x → ld j m = .ok (x, m)) (hf : first.Valid)
    (hlt : first.base < last.base) (hm : Mapped W first.addr last.addr)
    (hpc : ∀ N : Nat, last.base = midFirst first + N → pc (midFirst first) N m = .error er) :
    countBy S ld pc first last v m = .error er := by
  have hw : 0 < w := Nat.lt_of_le_of_lt (Nat.zero_le _) hf
  have hf' : first.pos < w := hf
  have hfa : first.addr = first.base * w + first.pos := rfl
  have hla : last.addr = last.base * w + last.pos := rfl
  have hb2 := base_lt_mul (w := w) hlt
  have e1 : (first.base + 1) * (w : Int) = first.base * w + w := by ring
  have hmid : midFirst first ≤ last.base := by unfold midFirst; split_ifs <;> omega
  have rest : ∀ r0 : BitVec 64, fails (do
      let n ← wordDist (midFirst first) last.base
      let r1 ← pc (midFirst first) n
      if last.pos ≠ 0 then do
        let x ← ld last.base
        let x ← lift (S.shl x (w - last.pos))
        pure (r0 + r1 + BitVec.ofNat 64 (popcnt x))
      else pure (r0 + r1) : M u (BitVec 64)) m er := by
    intro r0
    refine fails_bind ?_
    rw [wp_wordDist]
    refine ⟨hmid, ?_⟩
    exact fails_bind_left (hpc _ (by omega))
  have : fails (countBy S ld pc first last v) m er := by
    unfold countBy
    refine fails_bind ?_
    unfold assertM
    rw [if_pos (by rw [BitIter.diff_eq]; omega), wp_pure]
    dsimp only
    refine fails_bind_left ?_
    rw [if_pos (by omega)]
    refine fails_bind ?_
    by_cases hfp : first.pos ≠ 0
    · have hmid' : midFirst first = first.base + 1 := by unfold midFirst; rw [if_pos hfp]
      rw [if_pos hfp, wp_bind]
      obtain ⟨x, hx⟩ := mapped_word hw (a := first.base) (i := first.addr) (by omega) (by omega) (hm first.addr (by omega) (by omega))
      refine ⟨x, m, hld _ _ hx, ?_⟩
      beta_reduce
      rw [wp_bind, S.shr_ok hf', wp_lift_ok, wp_pure]
      have := rest (BitVec.ofNat 64 (popcnt (x >>> first.pos)))
      rw [hmid'] at this
      exact this
    · have hmid' : midFirst first = first.base := by unfold midFirst; rw [if_neg hfp]
      rw [if_neg hfp, wp_pure]
      have := rest 0#64
      rw [hmid'] at this
      exact this
  exact this

end BitLib
