import Verif.Lemmas.Popcnt
import Verif.Lemmas.Overshift
/-
The loops of libpopcnt.h.
-/
namespace BitLib

/-- Number of set bits of the `n` bytes at `p`. -/
def cntBytes (m : Mem 8) (p : Int) (n : Nat) : Nat := countIn m true (p * 8) (n * 8)

/-- The `n` bytes at `p` may be read. -/
def Buf (m : Mem 8) (p : Int) (n : Nat) : Prop := ∀ j : Nat, j < n → ∃ x, m (p + (j : Int)) = some x

theorem Buf.sub {m : Mem 8} {p : Int} {n : Nat} (h : Buf m p n) (i k : Nat) (hk : i + k ≤ n) : Buf m (p + (i : Int)) k := by
  intro j hj
  have := h (i + j) (by omega)
  rw [show p + (i : Int) + (j : Int) = p + ((i + j : Nat) : Int) by push_cast; omega]
  exact this

theorem Buf.of_mapped {m : Mem 8} {p : Int} {n : Nat} (h : Mapped m (p * 8) (p * 8 + n * 8)) : Buf m p n := by
  intro j hj
  have := h ((p + (j : Int)) * 8) (by omega) (by omega)
  exact mapped_word (w := 8) (by decide) (i := (p + (j : Int)) * 8) (by simp) (by simp) this

theorem cntBytes_zero (m : Mem 8) (p : Int) : cntBytes m p 0 = 0 := rfl

theorem cntBytes_add (m : Mem 8) (p : Int) (n k : Nat) : cntBytes m p (n + k) = cntBytes m p n + cntBytes m (p + (n : Int)) k := by
  unfold cntBytes
  rw [Nat.add_mul, countIn_eq_cntF, cntF_add, Int.add_mul]
  rfl

theorem cntBytes_one {m : Mem 8} {p : Int} {x : BitVec 8} (h : m p = some x) : cntBytes m p 1 = popcntBits x 8 := by
  unfold cntBytes
  refine (popcnt_low m x (p * 8) 8 (Nat.le_refl _) ?_ ?_).symm
  · intro i hi
    have := bitAt_word m p i hi
    rw [h] at this
    exact this
  · intro i hi
    exact BitVec.getLsbD_of_ge x i hi

theorem cntBytes_succ {m : Mem 8} {p : Int} {n : Nat} {x : BitVec 8} (h : m (p + (n : Int)) = some x) :
    cntBytes m p (n + 1) = cntBytes m p n + popcntBits x 8 := by
  rw [cntBytes_add, cntBytes_one h]

theorem cntBytes_le {m : Mem 8} {p : Int} {n : Nat} : cntBytes m p n ≤ 8 * n := by
  unfold cntBytes countIn
  refine Nat.le_trans (List.countP_le_length) ?_
  simp
  omega

theorem wp_loadBytes : ∀ (n : Nat) {a : Int} {m : Mem 8} {Q : (Nat → BitVec 8) → Mem 8 → Prop}, Buf m a n →
    (∀ f, (∀ j, j < n → m (a + (j : Int)) = some (f j)) → (∀ j, n ≤ j → f j = 0#8) → Q f m) → wp (loadBytes n a) m Q
  | 0, a, m, Q, _, hQ => by
    unfold loadBytes
    rw [wp_pure]
    exact hQ _ (by intro j hj; omega) (by intro j _; rfl)
  | n+1, a, m, Q, hb, hQ => by
    unfold loadBytes
    rw [wp_bind]
    refine wp_loadBytes n (fun j hj => hb j (by omega)) fun f hf hf0 => ?_
    rw [wp_bind, wp_load]
    obtain ⟨x, hx⟩ := hb n (by omega)
    refine ⟨x, hx, ?_⟩
    rw [wp_pure]
    refine hQ _ (fun j hj => ?_) (fun j hj => ?_)
    · by_cases h : j = n
      · subst h; simp [hx]
      · rw [if_neg h]; exact hf j (by omega)
    · rw [if_neg (by omega)]; exact hf0 j (by omega)

theorem popcntBits_byte_zero : popcntBits (0#8) 8 = 0 := by decide

theorem sumTo_bytes {m : Mem 8} {a : Int} {f : Nat → BitVec 8} {n : Nat} (hf : ∀ j, j < n → m (a + (j : Int)) = some (f j))
    (hf0 : ∀ j, n ≤ j → f j = 0#8) (k : Nat) : sumTo (fun i => popcntBits (f i) 8) k = cntBytes m a (min k n) := by
  induction k with
  | zero => simp [sumTo, cntBytes_zero]
  | succ k ih =>
    rw [sumTo, ih]
    by_cases h : k < n
    · rw [show min (k + 1) n = k + 1 by omega, show min k n = k by omega, cntBytes_succ (hf k h)]
    · rw [hf0 k (by omega), show min (k + 1) n = min k n by omega, popcntBits_byte_zero]
      rfl

theorem pop64_ofBytes (f : Nat → BitVec 8) : pop64 (ofBytes f) = sumTo (fun i => popcntBits (f i) 8) 8 := by
  rw [pop64_bytes]
  exact sumTo_congr fun i hi => by rw [byteAt_ofBytes f i hi]

theorem wp_load64 {a : Int} {m : Mem 8} {Q : BitVec 64 → Mem 8 → Prop} (hb : Buf m a 8)
    (hQ : ∀ x, pop64 x = cntBytes m a 8 → Q x m) : wp (load64 a) m Q := by
  unfold load64
  rw [wp_bind]
  refine wp_loadBytes 8 hb fun f hf hf0 => ?_
  rw [wp_pure]
  refine hQ _ ?_
  rw [pop64_ofBytes, sumTo_bytes hf hf0]
  rfl

theorem wp_loadLanes : ∀ (n : Nat) {a : Int} {m : Mem 8} {Q : Lanes → Mem 8 → Prop}, Buf m a (8 * n) →
    (∀ f : Lanes, (∀ j, j < n → pop64 (f j) = cntBytes m (a + 8 * (j : Int)) 8) → Q f m) → wp (loadLanes n a) m Q
  | 0, a, m, Q, _, hQ => by
    unfold loadLanes
    rw [wp_pure]
    exact hQ _ (by intro j hj; omega)
  | n+1, a, m, Q, hb, hQ => by
    unfold loadLanes
    rw [wp_bind]
    refine wp_loadLanes n (fun j hj => hb j (by omega)) fun f hf => ?_
    rw [wp_bind]
    refine wp_load64 ?_ fun x hx => ?_
    · have := hb.sub (8 * n) 8 (by omega)
      push_cast at this
      exact this
    · rw [wp_pure]
      refine hQ _ (fun j hj => ?_)
      by_cases h : j = n
      · subst h; simp only [if_true]; exact hx
      · rw [if_neg h]; exact hf j (by omega)

/-! ### The Harley-Seal loop -/

/-- What the two instruction sets have in common. -/
structure Isa.Good (I : Isa) : Prop where
  csa : ∀ a b c, pop64 a + pop64 b + pop64 c = 2 * pop64 (I.csa a b c).1 + pop64 (I.csa a b c).2
  pop : ∀ v, I.pop v = BitVec.ofNat 64 (pop64 v)

theorem avx2_good : avx2.Good := ⟨csa256_count, popcnt256_eq⟩
theorem avx512_good : avx512.Good := ⟨csa512_count, popcnt512_eq⟩

/-- Number of set bits in lane `j` of the first `i` vectors at `p`. -/
def laneCnt (m : Mem 8) (p : Int) (L j : Nat) : Nat → Nat
  | 0 => 0
  | i+1 => laneCnt m p L j i + cntBytes m (p + 8 * (L : Int) * (i : Int) + 8 * (j : Int)) 8

/-- The invariant: the weighted counters hold the number of set bits of each lane. -/
def Inv (m : Mem 8) (p : Int) (L i : Nat) (s : HarleySeal) : Prop :=
  ∀ j, j < L → ∃ c, s.cnt j = BitVec.ofNat 64 c ∧
    16 * c + 8 * pop64 (s.eights j) + 4 * pop64 (s.fours j) + 2 * pop64 (s.twos j) + pop64 (s.ones j) = laneCnt m p L j i

theorem ofNat_add64 (a b : Nat) : BitVec.ofNat 64 a + BitVec.ofNat 64 b = BitVec.ofNat 64 (a + b) := (BitVec.ofNat_add ..).symm

theorem wp_ld {I : Isa} {m : Mem 8} {p : Int} {i : Nat} (k : Nat) {Q : Lanes → Mem 8 → Prop}
    (hb : Buf m p (8 * I.lanes * (i + 16))) (hk : k < 16)
    (hQ : ∀ f : Lanes, (∀ j, j < I.lanes → pop64 (f j) = cntBytes m (p + 8 * (I.lanes : Int) * ((i + k : Nat) : Int) + 8 * (j : Int)) 8) → Q f m) :
    wp (loadLanes I.lanes (p + 8 * (I.lanes : Int) * (i : Int) + 8 * (I.lanes : Int) * (k : Int))) m Q := by
  have e : p + 8 * (I.lanes : Int) * (i : Int) + 8 * (I.lanes : Int) * (k : Int) = p + ((8 * I.lanes * (i + k) : Nat) : Int) := by
    push_cast
    rw [Int.mul_add, Int.add_assoc]
  rw [e]
  refine wp_loadLanes _ ?_ ?_
  · refine hb.sub (8 * I.lanes * (i + k)) (8 * I.lanes) ?_
    rw [show 8 * I.lanes * (i + k) + 8 * I.lanes = 8 * I.lanes * (i + k + 1) by rw [Nat.mul_add _ (i + k) 1, Nat.mul_one]]
    exact Nat.mul_le_mul_left _ (by omega)
  · intro f hf
    refine hQ f fun j hj => ?_
    rw [hf j hj]
    push_cast
    rfl

theorem wp_harleySealStep {I : Isa} (hI : I.Good) {m : Mem 8} {p : Int} {i : Nat} {s : HarleySeal} {Q : HarleySeal → Mem 8 → Prop}
    (hb : Buf m p (8 * I.lanes * (i + 16))) (hs : Inv m p I.lanes i s) (hQ : ∀ s', Inv m p I.lanes (i + 16) s' → Q s' m) :
    wp (harleySealStep I (p + 8 * (I.lanes : Int) * (i : Int)) s) m Q := by
  unfold harleySealStep Isa.csaV
  dsimp only
  rw [wp_bind]; refine wp_ld 0 hb (by omega) fun f0 h0 => ?_
  rw [wp_bind]; refine wp_ld 1 hb (by omega) fun f1 h1 => ?_
  rw [wp_bind]; refine wp_ld 2 hb (by omega) fun f2 h2 => ?_
  rw [wp_bind]; refine wp_ld 3 hb (by omega) fun f3 h3 => ?_
  rw [wp_bind]; refine wp_ld 4 hb (by omega) fun f4 h4 => ?_
  rw [wp_bind]; refine wp_ld 5 hb (by omega) fun f5 h5 => ?_
  rw [wp_bind]; refine wp_ld 6 hb (by omega) fun f6 h6 => ?_
  rw [wp_bind]; refine wp_ld 7 hb (by omega) fun f7 h7 => ?_
  rw [wp_bind]; refine wp_ld 8 hb (by omega) fun f8 h8 => ?_
  rw [wp_bind]; refine wp_ld 9 hb (by omega) fun f9 h9 => ?_
  rw [wp_bind]; refine wp_ld 10 hb (by omega) fun f10 h10 => ?_
  rw [wp_bind]; refine wp_ld 11 hb (by omega) fun f11 h11 => ?_
  rw [wp_bind]; refine wp_ld 12 hb (by omega) fun f12 h12 => ?_
  rw [wp_bind]; refine wp_ld 13 hb (by omega) fun f13 h13 => ?_
  rw [wp_bind]; refine wp_ld 14 hb (by omega) fun f14 h14 => ?_
  rw [wp_bind]; refine wp_ld 15 hb (by omega) fun f15 h15 => ?_
  rw [wp_pure]
  refine hQ _ fun j hj => ?_
  obtain ⟨c, hc, e⟩ := hs j hj
  dsimp only
  refine ⟨_, by rw [hc, hI.pop, ofNat_add64], ?_⟩
  -- the fifteen adders
  have a1 := hI.csa (s.ones j) (f0 j) (f1 j)
  generalize I.csa (s.ones j) (f0 j) (f1 j) = r1 at a1 ⊢
  have a2 := hI.csa r1.2 (f2 j) (f3 j)
  generalize I.csa r1.2 (f2 j) (f3 j) = r2 at a2 ⊢
  have a3 := hI.csa (s.twos j) r1.1 r2.1
  generalize I.csa (s.twos j) r1.1 r2.1 = r3 at a3 ⊢
  have a4 := hI.csa r2.2 (f4 j) (f5 j)
  generalize I.csa r2.2 (f4 j) (f5 j) = r4 at a4 ⊢
  have a5 := hI.csa r4.2 (f6 j) (f7 j)
  generalize I.csa r4.2 (f6 j) (f7 j) = r5 at a5 ⊢
  have a6 := hI.csa r3.2 r4.1 r5.1
  generalize I.csa r3.2 r4.1 r5.1 = r6 at a6 ⊢
  have a7 := hI.csa (s.fours j) r3.1 r6.1
  generalize I.csa (s.fours j) r3.1 r6.1 = r7 at a7 ⊢
  have a8 := hI.csa r5.2 (f8 j) (f9 j)
  generalize I.csa r5.2 (f8 j) (f9 j) = r8 at a8 ⊢
  have a9 := hI.csa r8.2 (f10 j) (f11 j)
  generalize I.csa r8.2 (f10 j) (f11 j) = r9 at a9 ⊢
  have a10 := hI.csa r6.2 r8.1 r9.1
  generalize I.csa r6.2 r8.1 r9.1 = r10 at a10 ⊢
  have a11 := hI.csa r9.2 (f12 j) (f13 j)
  generalize I.csa r9.2 (f12 j) (f13 j) = r11 at a11 ⊢
  have a12 := hI.csa r11.2 (f14 j) (f15 j)
  generalize I.csa r11.2 (f14 j) (f15 j) = r12 at a12 ⊢
  have a13 := hI.csa r10.2 r11.1 r12.1
  generalize I.csa r10.2 r11.1 r12.1 = r13 at a13 ⊢
  have a14 := hI.csa r7.2 r10.1 r13.1
  generalize I.csa r7.2 r10.1 r13.1 = r14 at a14 ⊢
  have a15 := hI.csa (s.eights j) r7.1 r14.1
  generalize I.csa (s.eights j) r7.1 r14.1 = r15 at a15 ⊢
  have b0 : pop64 (f0 j) = cntBytes m (p + 8 * (I.lanes : Int) * (i : Int) + 8 * (j : Int)) 8 := h0 j hj
  have b1 := h1 j hj
  have b2 := h2 j hj
  have b3 := h3 j hj
  have b4 := h4 j hj
  have b5 := h5 j hj
  have b6 := h6 j hj
  have b7 := h7 j hj
  have b8 := h8 j hj
  have b9 := h9 j hj
  have b10 := h10 j hj
  have b11 := h11 j hj
  have b12 := h12 j hj
  have b13 := h13 j hj
  have b14 := h14 j hj
  have b15 := h15 j hj
  simp only [laneCnt]
  rw [← b0, ← b1, ← b2, ← b3, ← b4, ← b5, ← b6, ← b7, ← b8, ← b9, ← b10, ← b11, ← b12, ← b13, ← b14, ← b15, ← e]
  clear b0 b1 b2 b3 b4 b5 b6 b7 b8 b9 b10 b11 b12 b13 b14 b15 h0 h1 h2 h3 h4 h5 h6 h7 h8 h9 h10 h11 h12 h13 h14 h15 e hc hQ hs
  omega

theorem wp_harleySealLoop {I : Isa} (hI : I.Good) {m : Mem 8} {p : Int} {limit : Nat} {Q : Nat × HarleySeal → Mem 8 → Prop}
    (hb : Buf m p (8 * I.lanes * limit)) (hQ : ∀ s', Inv m p I.lanes limit s' → Q (limit, s') m) :
    ∀ (fuel i : Nat) {s : HarleySeal}, i ≤ limit → (limit - i) % 16 = 0 → limit - i < fuel → Inv m p I.lanes i s →
      wp (harleySealLoop I fuel p i limit s) m Q
  | 0, _, _, _, _, hf, _ => by omega
  | fuel+1, i, s, hi, hd, hf, hs => by
    unfold harleySealLoop
    by_cases h : i < limit
    · rw [if_pos h, wp_bind]
      refine wp_harleySealStep hI ?_ hs fun s' hs' => ?_
      · intro j hj
        refine hb j (Nat.lt_of_lt_of_le hj (Nat.mul_le_mul_left _ (by omega)))
      · exact wp_harleySealLoop hI hb hQ fuel (i + 16) (by omega) (by omega) (by omega) hs'
    · rw [if_neg h, wp_pure]
      have : i = limit := by omega
      subst this
      exact hQ s hs

theorem wp_tailLoop {I : Isa} (hI : I.Good) {m : Mem 8} {p : Int} {size : Nat} {Q : Lanes → Mem 8 → Prop}
    (hb : Buf m p (8 * I.lanes * size)) (hQ : ∀ c : Lanes, (∀ j, j < I.lanes → c j = BitVec.ofNat 64 (laneCnt m p I.lanes j size)) → Q c m) :
    ∀ (fuel i : Nat) {cnt : Lanes}, i ≤ size → size - i < fuel →
      (∀ j, j < I.lanes → cnt j = BitVec.ofNat 64 (laneCnt m p I.lanes j i)) → wp (tailLoop I fuel p i size cnt) m Q
  | 0, _, _, _, hf, _ => by omega
  | fuel+1, i, cnt, hi, hf, hc => by
    unfold tailLoop
    by_cases h : i < size
    · rw [if_pos h, wp_bind]
      refine wp_loadLanes _ ?_ fun f hf' => ?_
      · have := hb.sub (8 * I.lanes * i) (8 * I.lanes) (by
          rw [show 8 * I.lanes * i + 8 * I.lanes = 8 * I.lanes * (i + 1) by rw [Nat.mul_add _ i 1, Nat.mul_one]]
          exact Nat.mul_le_mul_left _ (by omega))
        push_cast at this
        exact this
      · refine wp_tailLoop hI hb hQ fuel (i + 1) (by omega) (by omega) fun j hj => ?_
        rw [hc j hj, hI.pop, ofNat_add64, hf' j hj]
        rfl
    · rw [if_neg h, wp_pure]
      have : i = size := by omega
      subst this
      exact hQ cnt hc

theorem sumLanes_ofNat (f : Lanes) (g : Nat → Nat) (n : Nat) (h : ∀ j, j < n → f j = BitVec.ofNat 64 (g j)) :
    sumLanes f n = BitVec.ofNat 64 (sumTo g n) := by
  induction n with
  | zero => rfl
  | succ n ih => rw [sumLanes, sumTo, ih (fun j hj => h j (by omega)), h n (by omega), ofNat_add64]

theorem sumTo_add (f g : Nat → Nat) (n : Nat) : sumTo (fun j => f j + g j) n = sumTo f n + sumTo g n := by
  induction n with
  | zero => rfl
  | succ n ih => simp only [sumTo]; omega

theorem sumTo_lanes (m : Mem 8) (a : Int) (n : Nat) : sumTo (fun j => cntBytes m (a + 8 * (j : Int)) 8) n = cntBytes m a (8 * n) := by
  induction n with
  | zero => rfl
  | succ n ih =>
    rw [sumTo, ih, Nat.mul_add, Nat.mul_one, cntBytes_add]
    push_cast
    rfl

theorem sumTo_zero (n : Nat) : sumTo (fun _ => 0) n = 0 := by
  induction n with
  | zero => rfl
  | succ n ih => rw [sumTo, ih]

theorem sumTo_laneCnt (m : Mem 8) (p : Int) (L i : Nat) : sumTo (fun j => laneCnt m p L j i) L = cntBytes m p (8 * L * i) := by
  induction i with
  | zero => simp only [laneCnt]; rw [sumTo_zero, Nat.mul_zero, cntBytes_zero]
  | succ i ih =>
    simp only [laneCnt]
    rw [sumTo_add, ih, sumTo_lanes m (p + 8 * (L : Int) * (i : Int)), Nat.mul_add (8 * L), Nat.mul_one, cntBytes_add]
    push_cast
    rfl

theorem shl_ofNat (c n : Nat) : BitVec.ofNat 64 c <<< n = BitVec.ofNat 64 (2 ^ n * c) := by
  apply BitVec.eq_of_toNat_eq
  rw [BitVec.toNat_shiftLeft, BitVec.toNat_ofNat, BitVec.toNat_ofNat, Nat.shiftLeft_eq, Nat.mod_mul_mod, Nat.mul_comm]

theorem wp_popcntVec {I : Isa} (hI : I.Good) {m : Mem 8} {p : Int} {size : Nat} {Q : BitVec 64 → Mem 8 → Prop}
    (hb : Buf m p (8 * I.lanes * size)) (hQ : Q (BitVec.ofNat 64 (cntBytes m p (8 * I.lanes * size))) m) :
    wp (popcntVec I p size) m Q := by
  unfold popcntVec
  dsimp only
  rw [wp_bind]
  refine wp_harleySealLoop hI (limit := size - size % 16) ?_ ?_ (size + 1) 0 (by omega) (by omega) (by omega) ?_
  · intro j hj
    exact hb j (Nat.lt_of_lt_of_le hj (Nat.mul_le_mul_left _ (by omega)))
  · intro s hs
    dsimp only
    rw [wp_bind]
    refine wp_tailLoop hI hb ?_ (size + 1) (size - size % 16) (by omega) (by omega) ?_
    · intro c hc
      rw [wp_pure, sumLanes_ofNat c _ _ hc, sumTo_laneCnt]
      exact hQ
    · intro j hj
      obtain ⟨c, hc, e⟩ := hs j hj
      rw [hc, hI.pop, hI.pop, hI.pop, hI.pop, shl_ofNat, shl_ofNat, shl_ofNat, shl_ofNat, ofNat_add64, ofNat_add64, ofNat_add64, ofNat_add64, ← e]
      rfl
  · intro j _
    refine ⟨0, rfl, ?_⟩
    have : pop64 0#64 = 0 := by decide
    dsimp only
    rw [this]
    rfl

/-! ### The entry point -/

theorem popcntBits_split_at {v w : Nat} (x : BitVec w) (y : BitVec v) (a n : Nat) (h : ∀ i, i < n → y.getLsbD i = x.getLsbD (a + i)) :
    popcntBits x (a + n) = popcntBits x a + popcntBits y n := by
  induction n with
  | zero => rfl
  | succ n ih =>
    rw [← Nat.add_assoc, popcntBits, popcntBits, ih (fun i hi => h i (by omega)), h n (by omega), Nat.add_assoc]

theorem popcnt64_eq (v : Popcnt64) (x : BitVec 64) : popcnt64 v x = BitVec.ofNat 64 (pop64 x) := by
  cases v with
  | wide => rfl
  | integer => exact popcount64_eq x
  | halves =>
    unfold popcnt64 pop64
    have h1 := popcntBits_split_at x (x.setWidth 32) 0 32 (fun i hi => by simp [hi])
    have h2 := popcntBits_split_at x ((x >>> 32).setWidth 32) 32 32 (fun i hi => by simp [hi])
    have l1 := popcntBits_le (x.setWidth 32) 32
    have l2 := popcntBits_le ((x >>> 32).setWidth 32) 32
    have e : popcntBits x 0 = 0 := rfl
    rw [show 32 + 32 = 64 by rfl] at h2
    rw [show 0 + 32 = 32 by rfl, e, Nat.zero_add] at h1
    rw [h2, h1]
    apply BitVec.eq_of_toNat_eq
    rw [BitVec.toNat_setWidth, BitVec.toNat_add, BitVec.toNat_ofNat, BitVec.toNat_ofNat, BitVec.toNat_ofNat]
    simp only [Nat.reducePow]
    omega

theorem pop64_byte (x : BitVec 8) : pop64 (x.setWidth 64) = popcntBits x 8 := by
  unfold pop64
  have h := popcntBits_split_at (x.setWidth 64) x 0 8 (fun i hi => by simp [BitVec.getLsbD_setWidth]; omega)
  have h2 := popcntBits_split_at (x.setWidth 64) (0#56) 8 56 (fun i hi => by
    rw [BitVec.getLsbD_setWidth, BitVec.getLsbD_of_ge x (8 + i) (by omega)]; simp)
  have e : popcntBits (0#56) 56 = 0 := by decide
  rw [show 8 + 56 = 64 by rfl, e] at h2
  rw [show 0 + 8 = 8 by rfl, show popcntBits (x.setWidth 64) 0 = 0 by rfl, Nat.zero_add] at h
  rw [h2, h]
  rfl

variable {pc : BitVec 64 → BitVec 64}

theorem wp_byteLoop (hpc : ∀ x, pc x = BitVec.ofNat 64 (pop64 x)) {m : Mem 8} {p : Int} {size : Nat} {Q : BitVec 64 → Mem 8 → Prop} {c0 : Nat}
    (hb : Buf m p size) :
    ∀ (fuel i : Nat) {cnt : BitVec 64}, size - i < fuel → cnt = BitVec.ofNat 64 (c0 + cntBytes m p i) →
      Q (BitVec.ofNat 64 (c0 + cntBytes m p (max i size))) m → wp (byteLoop pc fuel p i size cnt) m Q
  | 0, _, _, hf, _, _ => by omega
  | fuel+1, i, cnt, hf, hc, hQ => by
    unfold byteLoop
    by_cases h : i < size
    · rw [if_pos h, wp_bind, wp_load]
      obtain ⟨x, hx⟩ := hb i h
      refine ⟨x, hx, ?_⟩
      refine wp_byteLoop hpc (c0 := c0) hb fuel (i + 1) (by omega) ?_ ?_
      · rw [hc, hpc, pop64_byte, ofNat_add64, cntBytes_succ hx, Nat.add_assoc]
      · rw [show max (i + 1) size = max i size by omega]
        exact hQ
    · rw [if_neg h, wp_pure, hc]
      rw [show max i size = i by omega] at hQ
      exact hQ

/-- `n` iterations of the word loop, starting at `i`. -/
theorem wp_wordLoop (hpc : ∀ x, pc x = BitVec.ofNat 64 (pop64 x)) {m : Mem 8} {p : Int} {limit : Nat} {Q : Nat × BitVec 64 → Mem 8 → Prop} {c0 : Nat} :
    ∀ (fuel n i : Nat) {cnt : BitVec 64}, n < fuel → limit ≤ i + 8 * n → (n = 0 ∨ i + 8 * n < limit + 8) → Buf m p (i + 8 * n) →
      cnt = BitVec.ofNat 64 (c0 + cntBytes m p i) →
      Q (i + 8 * n, BitVec.ofNat 64 (c0 + cntBytes m p (i + 8 * n))) m → wp (wordLoop pc fuel p i limit cnt) m Q
  | 0, _, _, _, hf, _, _, _, _, _ => by omega
  | fuel+1, n, i, cnt, hf, hl, hn, hb, hc, hQ => by
    unfold wordLoop
    by_cases h : i < limit
    · rw [if_pos h, wp_bind]
      refine wp_load64 (hb.sub i 8 (by omega)) fun x hx => ?_
      have e : i + 8 * n = i + 8 + 8 * (n - 1) := by omega
      rw [e] at hQ hb
      refine wp_wordLoop hpc fuel (n - 1) (i + 8) (by omega) (by omega) (by omega) hb ?_ hQ
      rw [hc, hpc, hx, ofNat_add64, cntBytes_add, Nat.add_assoc]
    · rw [if_neg h, wp_pure, hc]
      have : n = 0 := by omega
      subst this
      exact hQ

theorem wp_tailBytes {m : Mem 8} {p : Int} {i size : Nat} {cnt : BitVec 64} {Q : BitVec 64 → Mem 8 → Prop} {c0 : Nat}
    (hb : Buf m p size) (hi : size ≤ i + 8) (hc : cnt = BitVec.ofNat 64 (c0 + cntBytes m p i))
    (hQ : Q (BitVec.ofNat 64 (c0 + cntBytes m p (max i size))) m) : wp (tailBytes p i size cnt) m Q := by
  unfold tailBytes
  by_cases h : i < size
  · rw [if_pos h, wp_bind]
    refine wp_loadBytes _ (hb.sub i (size - i) (by omega)) fun f hf hf0 => ?_
    rw [wp_pure, popcount64_eq, pop64_ofBytes, sumTo_bytes hf hf0, hc, ofNat_add64, Nat.add_assoc,
      show min 8 (size - i) = size - i by omega, ← cntBytes_add, show i + (size - i) = max i size by omega]
    exact hQ
  · rw [if_neg h, wp_pure, hc]
    rw [show max i size = i by omega] at hQ
    exact hQ

/-- Bytes to skip until the address is a multiple of 8. -/
def skew (p : Int) : Nat := ((-p) % 8).toNat

theorem wp_alignLoop (hpc : ∀ x, pc x = BitVec.ofNat 64 (pop64 x)) {m : Mem 8} {p : Int} {Q : Nat × BitVec 64 → Mem 8 → Prop} {c0 : Nat}
    (hb : Buf m p (skew p)) (hQ : Q (skew p, BitVec.ofNat 64 (c0 + cntBytes m p (skew p))) m) :
    ∀ (fuel i : Nat) {cnt : BitVec 64}, i ≤ skew p → skew p - i < fuel → cnt = BitVec.ofNat 64 (c0 + cntBytes m p i) →
      wp (alignLoop pc fuel p i cnt) m Q
  | 0, _, _, _, hf, _ => by omega
  | fuel+1, i, cnt, hi, hf, hc => by
    unfold alignLoop
    by_cases h : i < skew p
    · rw [if_pos (by unfold skew at h; omega), wp_bind, wp_load]
      obtain ⟨x, hx⟩ := hb i h
      refine ⟨x, hx, ?_⟩
      refine wp_alignLoop hpc hb hQ fuel (i + 1) (by omega) (by omega) ?_
      rw [hc, hpc, pop64_byte, ofNat_add64, cntBytes_succ hx, Nat.add_assoc]
    · have : i = skew p := by omega
      rw [if_neg (by unfold skew at this; omega), wp_pure, hc, this]
      exact hQ

theorem skew_lt (p : Int) : skew p < 8 := by unfold skew; omega

theorem ofNat_zero_cnt (m : Mem 8) (p : Int) : 0#64 = BitVec.ofNat 64 (0 + cntBytes m p 0) := rfl

theorem wp_popcntX86 (c : X86) {m : Mem 8} {p : Int} {size : Nat} {Q : BitVec 64 → Mem 8 → Prop} (hb : Buf m p size)
    (hQ : Q (BitVec.ofNat 64 (cntBytes m p size)) m) : wp (popcntX86 c p size) m Q := by
  -- the common end: words, then the rest
  have fin : ∀ i : Nat, i ≤ size → i % 8 = 0 → ∀ cnt, cnt = BitVec.ofNat 64 (0 + cntBytes m p i) →
      wp (if c.usePopcnt then do
        let (i, cnt) ← wordLoop (popcnt64 c.insn) (size + 1) p i (size - size % 8) cnt
        byteLoop (popcnt64 c.insn) (size + 1) p i size cnt
      else do
        let (i, cnt) ← wordLoop popcount64 (size + 1) p i (size - size % 8) cnt
        tailBytes p i size cnt : M 8 (BitVec 64)) m Q := by
    intro i hi h8 cnt hc
    have e : i + 8 * ((size - size % 8 - i) / 8) = size - size % 8 := by omega
    rw [wp_ite]
    constructor
    · intro _
      rw [wp_bind]
      refine wp_wordLoop (popcnt64_eq c.insn) (c0 := 0) (size + 1) ((size - size % 8 - i) / 8) i (by omega) (by omega) (by omega) ?_ hc ?_
      · rw [e]; exact fun j hj => hb j (by omega)
      · dsimp only
        rw [e]
        refine wp_byteLoop (popcnt64_eq c.insn) (c0 := 0) hb (size + 1) _ (by omega) rfl ?_
        rw [show max (size - size % 8) size = size by omega, Nat.zero_add]
        exact hQ
    · intro _
      rw [wp_bind]
      refine wp_wordLoop popcount64_eq (c0 := 0) (size + 1) ((size - size % 8 - i) / 8) i (by omega) (by omega) (by omega) ?_ hc ?_
      · rw [e]; exact fun j hj => hb j (by omega)
      · dsimp only
        rw [e]
        refine wp_tailBytes (c0 := 0) hb (by omega) rfl ?_
        rw [show max (size - size % 8) size = size by omega, Nat.zero_add]
        exact hQ
  -- the middle: AVX2 from position i
  have mid : ∀ i : Nat, i ≤ size → i % 32 = 0 → ∀ cnt, cnt = BitVec.ofNat 64 (0 + cntBytes m p i) →
      wp (do
        let (i, cnt) ← (if c.useAvx2 && decide (i + 512 ≤ size) then do
            let r ← popcntVec avx2 (p + (i : Int)) ((size - i) / 32)
            pure (size - size % 32, cnt + r)
          else pure (i, cnt) : M 8 (Nat × BitVec 64))
        if c.usePopcnt then do
          let (i, cnt) ← wordLoop (popcnt64 c.insn) (size + 1) p i (size - size % 8) cnt
          byteLoop (popcnt64 c.insn) (size + 1) p i size cnt
        else do
          let (i, cnt) ← wordLoop popcount64 (size + 1) p i (size - size % 8) cnt
          tailBytes p i size cnt : M 8 (BitVec 64)) m Q := by
    intro i hi h32 cnt hc
    rw [wp_bind, wp_ite]
    constructor
    · intro _
      have e : 8 * avx2.lanes * ((size - i) / 32) = size - size % 32 - i := by
        show 32 * ((size - i) / 32) = _
        omega
      rw [wp_bind]
      refine wp_popcntVec avx2_good ?_ ?_
      · rw [e]; exact hb.sub i _ (by omega)
      · rw [wp_pure]
        dsimp only
        refine fin _ (by omega) (by omega) _ ?_
        rw [hc, ofNat_add64, e, Nat.add_assoc, ← cntBytes_add, show i + (size - size % 32 - i) = size - size % 32 by omega]
    · intro _
      rw [wp_pure]
      exact fin i hi (by omega) cnt hc
  unfold popcntX86
  rw [wp_bind, wp_ite]
  constructor
  · intro _
    have e : 8 * avx512.lanes * (size / 64) = size - size % 64 := by
      show 64 * (size / 64) = _
      omega
    rw [wp_bind]
    refine wp_popcntVec avx512_good ?_ ?_
    · rw [e]; exact fun j hj => hb j (by omega)
    · rw [wp_pure, e]
      exact mid _ (by omega) (by omega) _ (by rw [Nat.zero_add]; exact BitVec.zero_add _)
  · intro _
    rw [wp_pure]
    exact mid 0 (by omega) (by omega) _ (ofNat_zero_cnt m p)

/-- The bytes that the version for other CPUs really counts. -/
def otherExtent (p : Int) (size : Nat) : Nat := if 8 ≤ size then max size (skew p + (size - size % 8)) else size

theorem wp_popcntOther (v : Popcnt64) {m : Mem 8} {p : Int} {size : Nat} {Q : BitVec 64 → Mem 8 → Prop} (hb : Buf m p (otherExtent p size))
    (hQ : Q (BitVec.ofNat 64 (cntBytes m p (otherExtent p size))) m) : wp (popcntOther v p size) m Q := by
  unfold popcntOther
  rw [wp_bind, wp_ite]
  have hk := skew_lt p
  constructor
  · intro h
    have ee : otherExtent p size = max size (skew p + (size - size % 8)) := if_pos h
    rw [ee] at hb hQ
    have e : skew p + 8 * (size / 8) = skew p + (size - size % 8) := by omega
    rw [wp_bind]
    refine wp_alignLoop (popcnt64_eq v) (c0 := 0) (fun j hj => hb j (by omega)) ?_ 9 0 (by omega) (by omega) (ofNat_zero_cnt m p)
    dsimp only
    refine wp_wordLoop (popcnt64_eq v) (c0 := 0) (size + 1) (size / 8) (skew p) (by omega) (by omega) (by omega) ?_ rfl ?_
    · rw [e]; exact fun j hj => hb j (by omega)
    · dsimp only
      refine wp_byteLoop (popcnt64_eq v) (c0 := 0) (fun j hj => hb j (by omega)) (size + 1) _ (by omega) rfl ?_
      rw [e, Nat.max_comm, Nat.zero_add]
      exact hQ
  · intro h
    have ee : otherExtent p size = size := if_neg h
    rw [ee] at hb hQ
    rw [wp_pure]
    dsimp only
    refine wp_byteLoop (popcnt64_eq v) (c0 := 0) hb (size + 1) 0 (by omega) (ofNat_zero_cnt m p) ?_
    rw [show max 0 size = size by omega, Nat.zero_add]
    exact hQ

/-! ### NEON -/

theorem sumTo_four (g : Nat → Nat) (n : Nat) : sumTo g (4 * n) = sumTo (fun j => g (4 * j)) n + sumTo (fun j => g (4 * j + 1)) n +
    sumTo (fun j => g (4 * j + 2)) n + sumTo (fun j => g (4 * j + 3)) n := by
  induction n with
  | zero => rfl
  | succ n ih =>
    rw [show 4 * (n + 1) = 4 * n + 1 + 1 + 1 + 1 by omega]
    simp only [sumTo]
    rw [ih]
    omega

/-- The sixteen bytes of each of the four registers. -/
def sum64 (T : Nat → Nat → Nat) : Nat := sumTo (T 0) 16 + sumTo (T 1) 16 + sumTo (T 2) 16 + sumTo (T 3) 16

theorem sum64_add (T U : Nat → Nat → Nat) : sum64 (fun k j => T k j + U k j) = sum64 T + sum64 U := by
  unfold sum64
  rw [sumTo_add, sumTo_add, sumTo_add, sumTo_add]
  omega

theorem wp_neonInner {m : Mem 8} {p : Int} {limit : Nat} {Q : Int × Nat × (Nat → Bytes) → Mem 8 → Prop} {i0 : Nat}
    (hb : Buf m p (64 * limit)) (hl : limit ≤ i0 + 31)
    (hQ : ∀ (t : Nat → Bytes) (T : Nat → Nat → Nat), (∀ k j, t k j = BitVec.ofNat 8 (T k j)) → (∀ k j, T k j ≤ 248) →
      sum64 T + cntBytes m p (64 * i0) = cntBytes m p (64 * limit) → Q (p + ((64 * limit : Nat) : Int), limit, t) m) :
    ∀ (fuel i : Nat) {t : Nat → Bytes} {T : Nat → Nat → Nat}, i0 ≤ i → i ≤ limit → limit - i < fuel → (∀ k j, t k j = BitVec.ofNat 8 (T k j)) →
      (∀ k j, T k j ≤ 8 * (i - i0)) → sum64 T + cntBytes m p (64 * i0) = cntBytes m p (64 * i) →
      wp (neonInner fuel (p + ((64 * i : Nat) : Int)) i limit t) m Q
  | 0, _, _, _, _, _, hf, _, _, _ => by omega
  | fuel+1, i, t, T, hi0, hi, hf, ht, hT, hs => by
    unfold neonInner
    by_cases h : i < limit
    · rw [if_pos h, wp_bind]
      refine wp_loadBytes 64 (hb.sub (64 * i) 64 (by omega)) fun f hf' hf0 => ?_
      dsimp only
      rw [show p + ((64 * i : Nat) : Int) + 64 = p + ((64 * (i + 1) : Nat) : Int) by push_cast; omega]
      refine wp_neonInner hb hl hQ fuel (i + 1) (T := fun k j => T k j + popcntBits (f (4 * j + k)) 8) (by omega) (by omega) (by omega) ?_ ?_ ?_
      · intro k j
        rw [ht k j]
        unfold vcnt
        exact (BitVec.ofNat_add ..).symm
      · intro k j
        have := hT k j
        have := popcntBits_le (f (4 * j + k)) 8
        omega
      · rw [sum64_add]
        have e := sumTo_bytes hf' hf0 64
        have e4 := sumTo_four (fun i => popcntBits (f i) 8) 16
        rw [show 4 * 16 = 64 by rfl] at e4
        rw [show 64 * (i + 1) = 64 * i + 64 by omega, cntBytes_add]
        have e5 : sum64 (fun k j => popcntBits (f (4 * j + k)) 8) = sumTo (fun i => popcntBits (f i) 8) 64 := by
          rw [e4]; rfl
        rw [e5, e, ← hs, show min 64 64 = 64 by rfl]
        omega
    · have : i = limit := by omega
      subst this
      rw [if_neg h, wp_pure]
      exact hQ t T ht (fun k j => by have := hT k j; omega) hs

theorem toNat_setWidth_of_lt {v w : Nat} (x : BitVec v) (h : x.toNat < 2 ^ w) : (x.setWidth w).toNat = x.toNat := by
  rw [BitVec.toNat_setWidth, Nat.mod_eq_of_lt h]

/-- `vpadalq` adds the eight bytes of each half. -/
theorem vpadalq_eq (sum : Lanes) (t : Bytes) (T : Nat → Nat) (ht : ∀ j, t j = BitVec.ofNat 8 (T j)) (hT : ∀ j, T j ≤ 248) (l : Nat) :
    vpadalq sum t l = sum l + BitVec.ofNat 64 (sumTo (fun b => T (8 * l + b)) 8) := by
  have h0 : ∀ j, (t j).toNat = T j := by
    intro j
    rw [ht j, BitVec.toNat_ofNat, Nat.mod_eq_of_lt (by have := hT j; omega)]
  have h1 : ∀ k, (vpaddl8 t k).toNat = T (2 * k) + T (2 * k + 1) := by
    intro k
    have := hT (2 * k)
    have := hT (2 * k + 1)
    unfold vpaddl8
    rw [BitVec.toNat_add, BitVec.toNat_setWidth, BitVec.toNat_setWidth, h0, h0]
    omega
  have h2 : ∀ k, (vpaddl16 (vpaddl8 t) k).toNat = T (4 * k) + T (4 * k + 1) + T (4 * k + 2) + T (4 * k + 3) := by
    intro k
    have := hT (4 * k)
    have := hT (4 * k + 1)
    have := hT (4 * k + 2)
    have := hT (4 * k + 3)
    unfold vpaddl16
    rw [BitVec.toNat_add, BitVec.toNat_setWidth, BitVec.toNat_setWidth, h1, h1, show 2 * (2 * k) = 4 * k by omega,
      show 2 * (2 * k + 1) = 4 * k + 2 by omega, show 4 * k + 2 + 1 = 4 * k + 3 by omega]
    omega
  unfold vpadalq
  congr 1
  apply BitVec.eq_of_toNat_eq
  rw [BitVec.toNat_add, BitVec.toNat_setWidth, BitVec.toNat_setWidth, h2, h2, BitVec.toNat_ofNat]
  simp only [sumTo]
  rw [show 4 * (2 * l) = 8 * l by omega, show 4 * (2 * l + 1) = 8 * l + 4 by omega]
  simp only [Nat.add_assoc, Nat.reduceAdd, Nat.add_zero, Nat.zero_add]
  rw [← Nat.add_mod]
  congr 1
  omega

theorem sumTo_halves (T : Nat → Nat) : sumTo (fun b => T (8 * 0 + b)) 8 + sumTo (fun b => T (8 * 1 + b)) 8 = sumTo T 16 := by
  simp only [sumTo, Nat.mul_zero, Nat.zero_add, Nat.mul_one, Nat.reduceAdd, Nat.add_zero]
  omega

theorem wp_neonOuter {m : Mem 8} {p : Int} {iters : Nat} {Q : Int × Lanes → Mem 8 → Prop} (hb : Buf m p (64 * iters))
    (hQ : ∀ sum : Lanes, sum 0 + sum 1 = BitVec.ofNat 64 (cntBytes m p (64 * iters)) → Q (p + ((64 * iters : Nat) : Int), sum) m) :
    ∀ (fuel i : Nat) {sum : Lanes}, i < iters → iters - i ≤ fuel → sum 0 + sum 1 = BitVec.ofNat 64 (cntBytes m p (64 * i)) →
      wp (neonOuter fuel (p + ((64 * i : Nat) : Int)) i iters sum) m Q
  | 0, _, _, _, _, _ => by omega
  | fuel+1, i, sum, hi, hf, hs => by
    unfold neonOuter
    dsimp only
    generalize hl : (if i + 31 < iters then i + 31 else iters) = limit
    have hl1 : limit ≤ i + 31 ∧ i < limit ∧ limit ≤ iters ∧ (limit < iters → limit = i + 31) := by
      rw [← hl]
      split_ifs <;> omega
    clear hl
    obtain ⟨l1, l2, l3, l4⟩ := hl1
    rw [wp_bind]
    refine wp_neonInner (i0 := i) (limit := limit) (fun j hj => hb j (by omega)) (by omega) ?_ 32 i (T := fun _ _ => 0) (by omega) (by omega) (by omega)
      (fun _ _ => rfl) (fun _ _ => by omega) ?_
    · intro t T ht hT hsum
      dsimp only
      have key : ∀ s : Lanes, s = vpadalq (vpadalq (vpadalq (vpadalq sum (t 0)) (t 1)) (t 2)) (t 3) →
          s 0 + s 1 = BitVec.ofNat 64 (cntBytes m p (64 * limit)) := by
        intro s hs'
        have e : ∀ l, s l = sum l + BitVec.ofNat 64 (sumTo (fun b => T 0 (8 * l + b)) 8) + BitVec.ofNat 64 (sumTo (fun b => T 1 (8 * l + b)) 8) +
            BitVec.ofNat 64 (sumTo (fun b => T 2 (8 * l + b)) 8) + BitVec.ofNat 64 (sumTo (fun b => T 3 (8 * l + b)) 8) := by
          intro l
          rw [hs', vpadalq_eq _ _ (T 3) (ht 3) (hT 3), vpadalq_eq _ _ (T 2) (ht 2) (hT 2), vpadalq_eq _ _ (T 1) (ht 1) (hT 1),
            vpadalq_eq _ _ (T 0) (ht 0) (hT 0)]
        have f0 := sumTo_halves (T 0)
        have f1 := sumTo_halves (T 1)
        have f2 := sumTo_halves (T 2)
        have f3 := sumTo_halves (T 3)
        unfold sum64 at hsum
        have hs2 := congrArg BitVec.toNat hs
        rw [e 0, e 1]
        apply BitVec.eq_of_toNat_eq
        simp only [BitVec.toNat_add, BitVec.toNat_ofNat] at hs2 ⊢
        generalize sumTo (fun b => T 0 (8 * 0 + b)) 8 = x0 at *
        generalize sumTo (fun b => T 0 (8 * 1 + b)) 8 = y0 at *
        generalize sumTo (fun b => T 1 (8 * 0 + b)) 8 = x1 at *
        generalize sumTo (fun b => T 1 (8 * 1 + b)) 8 = y1 at *
        generalize sumTo (fun b => T 2 (8 * 0 + b)) 8 = x2 at *
        generalize sumTo (fun b => T 2 (8 * 1 + b)) 8 = y2 at *
        generalize sumTo (fun b => T 3 (8 * 0 + b)) 8 = x3 at *
        generalize sumTo (fun b => T 3 (8 * 1 + b)) 8 = y3 at *
        omega
      by_cases h : limit < iters
      · rw [if_pos h]
        exact wp_neonOuter hb hQ fuel limit h (by omega) (key _ rfl)
      · rw [if_neg h, wp_pure]
        have : limit = iters := by omega
        subst this
        exact hQ _ (key _ rfl)
    · show sum64 (fun _ _ => 0) + _ = _
      have : sum64 (fun _ _ => 0) = 0 := rfl
      rw [this, Nat.zero_add]

/-- The bytes that the NEON version really counts. -/
def neonExtent (unaligned : Bool) (p : Int) (size : Nat) : Nat :=
  if unaligned then size else size - size % 64 + otherExtent p (size % 64)

theorem wp_popcntNeon (u : Bool) (v : Popcnt64) {m : Mem 8} {p : Int} {size : Nat} {Q : BitVec 64 → Mem 8 → Prop}
    (hb : Buf m p (neonExtent u p size)) (hQ : Q (BitVec.ofNat 64 (cntBytes m p (neonExtent u p size))) m) :
    wp (popcntNeon u v p size) m Q := by
  have hext : size - size % 64 + size % 64 ≤ neonExtent u p size := by
    unfold neonExtent otherExtent
    cases u <;> simp only [Bool.false_eq_true, if_false, if_true] <;> (try split_ifs) <;> omega
  -- after the vector part: q bytes are done
  have fin : ∀ q r : Nat, q + r = size → q % 64 = 0 → r = size % 64 → ∀ cnt, cnt = BitVec.ofNat 64 (cntBytes m p q) →
      wp (do
        let (i, cnt) ← (if u then wordLoop (popcnt64 v) (r + 1) (p + (q : Int)) 0 (r - r % 8) cnt
          else if 0 + 8 ≤ r then do
            let (i, cnt) ← alignLoop (popcnt64 v) 9 (p + (q : Int)) 0 cnt
            wordLoop (popcnt64 v) (r + 1) (p + (q : Int)) i (r - r % 8) cnt
          else pure (0, cnt) : M 8 (Nat × BitVec 64))
        tailBytes (p + (q : Int)) i r cnt : M 8 (BitVec 64)) m Q := by
    intro q r hqr hq hr cnt hc
    have hsk : skew (p + (q : Int)) = skew p := by unfold skew; omega
    have hk := skew_lt p
    have hb' : ∀ k, q + k ≤ neonExtent u p size → Buf m (p + (q : Int)) k := fun k hk => hb.sub q k hk
    have hc' : cnt = BitVec.ofNat 64 (cntBytes m p q + cntBytes m (p + (q : Int)) 0) := hc
    rw [wp_bind]
    cases u with
    | true =>
      have ee : neonExtent true p size = size := rfl
      rw [ee] at hQ hb'
      rw [if_pos rfl]
      have e : 0 + 8 * (r / 8) = r - r % 8 := by omega
      refine wp_wordLoop (popcnt64_eq v) (c0 := cntBytes m p q) (r + 1) (r / 8) 0 (by omega) (by omega) (by omega) ?_ hc' ?_
      · rw [e]; exact hb' _ (by omega)
      · dsimp only
        rw [e]
        refine wp_tailBytes (c0 := cntBytes m p q) (hb' r (by omega)) (by omega) rfl ?_
        rw [show max (r - r % 8) r = r by omega, ← cntBytes_add, hqr]
        exact hQ
    | false =>
      have ee : neonExtent false p size = q + otherExtent p r := by
        show size - size % 64 + _ = _
        rw [← hr]
        omega
      rw [ee] at hQ hb'
      rw [if_neg (by simp), wp_ite]
      constructor
      · intro h
        have e3 : otherExtent p r = max r (skew p + (r - r % 8)) := if_pos (by omega)
        have e : skew p + 8 * (r / 8) = skew p + (r - r % 8) := by omega
        rw [e3] at hQ hb'
        rw [wp_bind]
        refine wp_alignLoop (popcnt64_eq v) (c0 := cntBytes m p q) (hb' _ (by omega)) ?_ 9 0 (by omega) (by omega) hc'
        dsimp only
        rw [hsk]
        refine wp_wordLoop (popcnt64_eq v) (c0 := cntBytes m p q) (r + 1) (r / 8) (skew p) (by omega) (by omega) (by omega) ?_ rfl ?_
        · rw [e]; exact hb' _ (by omega)
        · dsimp only
          refine wp_tailBytes (c0 := cntBytes m p q) (hb' r (by omega)) (by omega) rfl ?_
          rw [e, Nat.max_comm, ← cntBytes_add]
          exact hQ
      · intro h
        have e3 : otherExtent p r = r := if_neg (by omega)
        rw [e3] at hQ hb'
        rw [wp_pure]
        dsimp only
        refine wp_tailBytes (c0 := cntBytes m p q) (hb' r (by omega)) (by omega) hc' ?_
        rw [show max 0 r = r by omega, ← cntBytes_add]
        exact hQ
  unfold popcntNeon
  rw [wp_bind, wp_ite]
  constructor
  · intro h
    have e : 64 * (size / 64) = size - size % 64 := by omega
    rw [wp_bind]
    have h0 : p = p + ((64 * 0 : Nat) : Int) := by simp
    conv => rw [h0]
    refine wp_neonOuter (p := p) (iters := size / 64) ?_ ?_ (size + 1) 0 (by omega) (by omega) ?_
    · rw [e]; exact fun j hj => hb j (by omega)
    · intro sum hsum
      dsimp only
      rw [wp_pure]
      dsimp only
      refine fin _ (size % 64) (by omega) (by omega) rfl _ ?_
      rw [BitVec.zero_add]
      exact hsum
    · rfl
  · intro h
    rw [wp_pure]
    dsimp only
    have := fin 0 size (by omega) (by omega) (by omega) 0#64 rfl
    rw [show p + ((0 : Nat) : Int) = p by simp] at this
    exact this

/-! ### Reading past the end -/

theorem fails_loadBytes : ∀ (n : Nat) {a : Int} {m : Mem 8} (j : Nat), j < n → Buf m a j → m (a + (j : Int)) = none →
    fails (loadBytes n a) m .outOfBounds
  | 0, _, _, _, h, _, _ => by omega
  | n+1, a, m, j, h, hb, hj => by
    unfold loadBytes
    by_cases hjn : j = n
    · subst hjn
      refine fails_bind ?_
      refine wp_loadBytes j hb fun f _ _ => ?_
      exact fails_bind_left (fails_load hj)
    · exact fails_bind_left (fails_loadBytes n j (by omega) hb hj)

theorem fails_wordLoop {m : Mem 8} {p : Int} {limit size : Nat} (hb : Buf m p size) (hz : m (p + (size : Int)) = none) :
    ∀ (fuel n i : Nat) {cnt : BitVec 64}, n < fuel → i + 8 * n < limit + 8 → i ≤ size → size < i + 8 * n →
      fails (wordLoop pc fuel p i limit cnt) m .outOfBounds
  | 0, _, _, _, hf, _, _, _ => by omega
  | fuel+1, n, i, cnt, hf, hl, hi, hs => by
    unfold wordLoop
    rw [if_pos (by omega)]
    by_cases h : i + 8 ≤ size
    · refine fails_bind ?_
      refine wp_load64 (hb.sub i 8 (by omega)) fun x _ => ?_
      exact fails_wordLoop hb hz fuel (n - 1) (i + 8) (by omega) (by omega) (by omega) (by omega)
    · refine fails_bind_left ?_
      unfold load64
      refine fails_bind_left ?_
      refine fails_loadBytes 8 (size - i) (by omega) (hb.sub i _ (by omega)) ?_
      rw [show p + (i : Int) + ((size - i : Nat) : Int) = p + (size : Int) by omega]
      exact hz

theorem fails_popcntOther (v : Popcnt64) {m : Mem 8} {p : Int} {size : Nat} (hb : Buf m p size) (hz : m (p + (size : Int)) = none)
    (h8 : 8 ≤ size) (hk : size % 8 < skew p) : fails (popcntOther v p size) m .outOfBounds := by
  have := skew_lt p
  unfold popcntOther
  refine fails_bind_left ?_
  rw [if_pos h8]
  refine fails_bind ?_
  refine wp_alignLoop (popcnt64_eq v) (c0 := 0) (fun j hj => hb j (by omega)) ?_ 9 0 (by omega) (by omega) (ofNat_zero_cnt m p)
  dsimp only
  exact fails_wordLoop hb hz (size + 1) (size / 8) (skew p) (by omega) (by omega) (by omega) (by omega)

theorem fails_popcntNeon (v : Popcnt64) {m : Mem 8} {p : Int} {size : Nat} (hb : Buf m p size) (hz : m (p + (size : Int)) = none)
    (h8 : 8 ≤ size % 64) (hk : size % 8 < skew p) : fails (popcntNeon false v p size) m .outOfBounds := by
  have := skew_lt p
  have fin : ∀ q r : Nat, q + r = size → q % 64 = 0 → r = size % 64 → ∀ cnt, cnt = BitVec.ofNat 64 (cntBytes m p q) →
      fails (do
        let (i, cnt) ← (if (false : Bool) then wordLoop (popcnt64 v) (r + 1) (p + (q : Int)) 0 (r - r % 8) cnt
          else if 0 + 8 ≤ r then do
            let (i, cnt) ← alignLoop (popcnt64 v) 9 (p + (q : Int)) 0 cnt
            wordLoop (popcnt64 v) (r + 1) (p + (q : Int)) i (r - r % 8) cnt
          else pure (0, cnt) : M 8 (Nat × BitVec 64))
        tailBytes (p + (q : Int)) i r cnt : M 8 (BitVec 64)) m .outOfBounds := by
    intro q r hqr hq hr cnt hc
    have hsk : skew (p + (q : Int)) = skew p := by unfold skew; omega
    refine fails_bind_left ?_
    rw [if_neg (by simp), if_pos (by omega)]
    refine fails_bind ?_
    refine wp_alignLoop (popcnt64_eq v) (c0 := cntBytes m p q) (hb.sub q _ (by omega)) ?_ 9 0 (by omega) (by omega) (by rw [hc]; rfl)
    dsimp only
    rw [hsk]
    refine fails_wordLoop (size := r) (hb.sub q r (by omega)) ?_ (r + 1) (r / 8) (skew p) (by omega) (by omega) (by omega) (by omega)
    rw [show p + (q : Int) + (r : Int) = p + (size : Int) by omega]
    exact hz
  unfold popcntNeon
  refine fails_bind ?_
  rw [wp_ite]
  constructor
  · intro h
    have e : 64 * (size / 64) = size - size % 64 := by omega
    rw [wp_bind]
    have h0 : p = p + ((64 * 0 : Nat) : Int) := by simp
    conv => rw [h0]
    refine wp_neonOuter (p := p) (iters := size / 64) ?_ ?_ (size + 1) 0 (by omega) (by omega) ?_
    · rw [e]; exact fun j hj => hb j (by omega)
    · intro sum hsum
      dsimp only
      rw [wp_pure]
      dsimp only
      refine fin _ (size % 64) (by omega) (by omega) rfl _ ?_
      rw [BitVec.zero_add]
      exact hsum
    · rfl
  · intro h
    rw [wp_pure]
    dsimp only
    have := fin 0 size (by omega) (by omega) (by omega) 0#64 rfl
    rw [show p + ((0 : Nat) : Int) = p by simp] at this
    exact this

end BitLib
