import Verif.Lemmas.PointersSwap
/- The word iterators that `rotate` forms. -/
namespace BitLib
namespace Ptr
variable {w : Nat} {α β : Type}

theorem f_rotFwdSwaps {A : Arr} {S : ShiftSem w} {k : Int} (hk : 0 < k) : ∀ (s : Nat) (p q : BitIter w), A.Has p → A.Has q → q.addr = p.addr + k →
    q.addr + s * k ≤ A.hi * w →
    Fits (rotFwdSwaps A S k s p q) (BitLib.rotFwdSwaps S k s p q)
      fun r => A.Has r.1 ∧ A.Has r.2 ∧ r.1.addr = p.addr + s * k ∧ r.2.addr = q.addr + s * k := by
  intro s
  induction s with
  | zero =>
    intro p q hp hq _ _
    unfold Ptr.rotFwdSwaps BitLib.rotFwdSwaps
    exact f_pure ⟨hp, hq, by simp, by simp⟩
  | succ s ih =>
    intro p q hp hq e h
    have hw := hp.pos_w
    have hpl := hp.lo_le
    have hsk : ((s + 1 : Nat) : Int) * k = s * k + k := by rw [Int.natCast_add, Int.add_mul]; simp
    have hs0 : 0 ≤ (s : Int) * k := Int.mul_nonneg (by omega) (by omega)
    rw [hsk] at h
    unfold Ptr.rotFwdSwaps BitLib.rotFwdSwaps
    have hp' := hp.add (n := k) (by omega) (by omega)
    have hq' := hq.add (n := k) (by omega) (by omega)
    refine f_bind' (f_swapRanges hp hq hq (by omega)) fun _ => f_add hp' (f_add hq' (f_mono (ih _ _ hp' hq' ?_ ?_) fun r hr => ⟨hr.1, hr.2.1, ?_, ?_⟩))
    · rw [BitIter.add_addr hw, BitIter.add_addr hw]
      omega
    · rw [BitIter.add_addr hw]
      omega
    · rw [hr.2.2.1, BitIter.add_addr hw, hsk]
      omega
    · rw [hr.2.2.2, BitIter.add_addr hw, hsk]
      omega

theorem f_rotBwdSwaps {A : Arr} {S : ShiftSem w} {k : Int} (hk : 0 < k) : ∀ (s : Nat) (p q : BitIter w), A.Has p → A.Has q → q.addr = p.addr + k →
    A.lo * w ≤ p.addr - s * k →
    Fits (rotBwdSwaps A S k s p q) (BitLib.rotBwdSwaps S k s p q)
      fun r => A.Has r.1 ∧ A.Has r.2 ∧ r.1.addr = p.addr - s * k ∧ r.2.addr = q.addr - s * k := by
  intro s
  induction s with
  | zero =>
    intro p q hp hq _ _
    unfold Ptr.rotBwdSwaps BitLib.rotBwdSwaps
    exact f_pure ⟨hp, hq, by simp, by simp⟩
  | succ s ih =>
    intro p q hp hq e h
    have hw := hp.pos_w
    have hpl := hq.le_hi
    have hsk : ((s + 1 : Nat) : Int) * k = s * k + k := by rw [Int.natCast_add, Int.add_mul]; simp
    have hs0 : 0 ≤ (s : Int) * k := Int.mul_nonneg (by omega) (by omega)
    rw [hsk] at h
    unfold Ptr.rotBwdSwaps BitLib.rotBwdSwaps
    have hp' := hp.sub (n := k) (by omega) (by omega)
    have hq' := hq.sub (n := k) (by omega) (by omega)
    have ep := BitIter.sub_addr hw p k
    have eq := BitIter.sub_addr hw q k
    refine f_sub hp' (f_sub hq' (f_bind' (f_swapRanges hp' hq' hq' (by omega)) fun _ => f_mono (ih _ _ hp' hq' (by omega) (by omega))
      fun r hr => ⟨hr.1, hr.2.1, ?_, ?_⟩))
    · rw [hr.2.2.1, hsk]
      omega
    · rw [hr.2.2.2, hsk]
      omega

theorem fullSwaps_le {n k : Int} (hk : 0 < k) (hn : 0 ≤ n) :
    0 ≤ Int.tdiv n k % 2 ^ 32 ∧ ((Int.tdiv n k % 2 ^ 32).toNat : Int) * k ≤ n ∧ ((Int.tdiv n k % 2 ^ 32).toNat : Int) = Int.tdiv n k % 2 ^ 32 := by
  have h0 : 0 ≤ Int.tdiv n k := Int.tdiv_nonneg hn (by omega)
  have h1 : 0 ≤ Int.tdiv n k % 2 ^ 32 := Int.emod_nonneg _ (by decide)
  have h2 : Int.tdiv n k % 2 ^ 32 ≤ Int.tdiv n k := by
    have := Int.mul_ediv_add_emod (Int.tdiv n k) (2 ^ 32)
    have hq : 0 ≤ Int.tdiv n k / 2 ^ 32 := Int.ediv_nonneg h0 (by decide)
    have : 0 ≤ (2 ^ 32 : Int) * (Int.tdiv n k / 2 ^ 32) := Int.mul_nonneg (by decide) hq
    omega
  have h3 : Int.tdiv n k * k ≤ n := by
    have := Int.mul_tdiv_add_tmod n k
    have := Int.tmod_nonneg (a := n) k hn
    rw [Int.mul_comm]
    omega
  have h4 : (Int.tdiv n k % 2 ^ 32) * k ≤ Int.tdiv n k * k := Int.mul_le_mul_of_nonneg_right h2 (by omega)
  have e : ((Int.tdiv n k % 2 ^ 32).toNat : Int) = Int.tdiv n k % 2 ^ 32 := by omega
  exact ⟨h1, by rw [e]; omega, e⟩

theorem rotateAtStart_base {A : Arr} {p : BitIter w} {k n : Int} (h : RotateAtStart A p k n) : p.base = A.lo := by
  induction h with
  | right k n _ _ h => exact h.2.1
  | swaps k n _ _ _ _ ih => exact ih

theorem f_rotLoop {A : Arr} {S : ShiftSem w} : ∀ (fuel : Nat) (p : BitIter w) (k n : Int), A.Has p → p.addr + n ≤ A.hi * w → 0 < k → k < n →
    ¬ RotateAtStart A p k n → Fits (rotLoop A S fuel p k n) (BitLib.rotLoop S fuel p k n) fun _ => True := by
  intro fuel
  induction fuel with
  | zero => intro p k n _ _ _ _ _; exact f_up _
  | succ fuel ih =>
    intro p k n h hh hk hkn hg
    have hw := h.pos_w
    have hlo := h.lo_le
    unfold Ptr.rotLoop BitLib.rotLoop
    have he := h.add (n := n) (by omega) (by omega)
    have hea := BitIter.add_addr hw p n
    have hpk := h.add (n := k) (by omega) (by omega)
    have hpka := BitIter.add_addr hw p k
    refine f_ite (fun hc => f_ite (fun hkw => ?_) fun hkw => ?_) fun hc => ?_
    · refine f_bind' (f_getWord h (by omega)) fun _ => f_add he (f_bind (f_shiftLeft h he ⟨hpk.lo_base, hpk.base_hi⟩) fun t ht => ?_)
      obtain ⟨ht1, ht2⟩ := ht hk (by omega)
      exact f_writeWord ht1 (by omega)
    · refine f_add hpk ?_
      obtain ⟨s0, s1, s2⟩ := fullSwaps_le (n := n - k) hk (by omega)
      refine f_bind (f_rotFwdSwaps hk _ _ _ h hpk hpka (by omega)) ?_
      rintro ⟨p', q'⟩ ⟨hp', hq', ep, eq⟩
      simp only at hp' hq' ep eq ⊢
      rw [s2] at ep eq s1
      generalize Int.tdiv (n - k) k % 2 ^ 32 * k = X at *
      have hpl := hp'.lo_le
      have hql := hq'.lo_le
      have hpr := hp'.add (n := n - k - X) (by omega) (by omega)
      have hqr := hq'.add (n := n - k - X) (by omega) (by omega)
      have hpra := BitIter.add_addr hw p' (n - k - X)
      refine f_add hpr (f_bind' (f_swapRanges hp' hpr hq' (by omega)) fun _ => f_add hpr (f_add hqr ?_))
      have ht0 := Int.tmod_nonneg (a := n) k (by omega)
      have ht1 := Int.tmod_lt_of_pos n hk
      refine f_ite (fun _ => f_pure trivial) fun hn0 => ih _ _ _ hpr (by omega) (by omega) (by omega) fun hr => ?_
      have hb := rotateAtStart_base hr
      have : A.lo + 1 ≤ (p'.add (n - k - X)).base := Arr.base_ge hpr.valid (by rw [mul_add_one]; omega)
      omega
    · dsimp only
      refine f_ite (fun hkw => ?_) fun hkw => ?_
      · have hs := he.sub (n := n - k) (by omega) (by omega)
        have hsa := BitIter.sub_addr hw (p.add n) (n - k)
        refine f_add he (f_sub hs (f_bind' (f_getWord hs (by omega)) fun _ => f_add he (f_bind'
          (f_shiftRight h he ⟨hs.lo_base, hs.base_hi⟩ fun hr => hg (.right _ _ (by omega) hkw hr)) fun _ => f_writeWord h (by omega))))
      · have hs := he.sub (n := n - k) (by omega) (by omega)
        have hsa := BitIter.sub_addr hw (p.add n) (n - k)
        obtain ⟨s0, s1, s2⟩ := fullSwaps_le (n := n - (n - k)) (k := n - k) (by omega) (by omega)
        have hX := Int.mul_nonneg s0 (show 0 ≤ n - k by omega)
        refine f_add he (f_sub hs (f_bind (f_rotBwdSwaps (by omega) _ _ _ hs he (by omega) (by omega)) ?_))
        rintro ⟨p', q'⟩ ⟨hp', hq', ep, eq⟩
        simp only at hp' hq' ep eq ⊢
        rw [s2] at ep eq s1
        generalize Int.tdiv (n - (n - k)) (n - k) % 2 ^ 32 * (n - k) = X at *
        have hpr := hp'.sub (n := n - (n - k) - X) (by omega) (by omega)
        have hqr := hq'.sub (n := n - (n - k) - X) (by omega) (by omega)
        have hpra := BitIter.sub_addr hw p' (n - (n - k) - X)
        have hqra := BitIter.sub_addr hw q' (n - (n - k) - X)
        have hpp : p'.sub (n - (n - k) - X) = p := BitIter.addr_inj hpr.valid h.valid (by omega)
        refine f_sub hpr (f_sub hqr ?_)
        rw [hpp] at hpra hpr ⊢
        have her := h.add (n := n - (n - k) - X) (by omega) (by omega)
        have hera := BitIter.add_addr hw p (n - (n - k) - X)
        refine f_add her (f_bind' (f_swapRanges h her hqr (by omega)) fun _ => ?_)
        have hte := Int.tmod_eq_emod_of_nonneg (a := n) (b := n - k) (by omega)
        have ht0 := Int.tmod_nonneg (a := n) (n - k) (by omega)
        have ht1 := Int.tmod_lt_of_pos n (show 0 < n - k by omega)
        refine f_ite (fun _ => f_pure trivial) fun hn0 => ih _ _ _ h (by omega) (by omega) (by omega) fun hr => hg (.swaps _ _ (by omega) (by omega) ?_ ?_)
        · rw [← hte]
          exact hn0
        · rw [← hte]
          exact hr

theorem s_rotLoop {A : Arr} {S : ShiftSem w} : ∀ (fuel : Nat) (p : BitIter w) (k n : Int), A.Has p → p.addr + n ≤ A.hi * w → 0 < k → k < n →
    RotateAtStart A p k n → Stuck (rotLoop A S fuel p k n) := by
  intro fuel
  induction fuel with
  | zero => intro p k n _ _ _ _ _ m r e; cases e
  | succ fuel ih =>
    intro p k n h hh hk hkn hg
    have hw := h.pos_w
    have hlo := h.lo_le
    unfold Ptr.rotLoop
    have he := h.add (n := n) (by omega) (by omega)
    have hea := BitIter.add_addr hw p n
    have hs := he.sub (n := n - k) (by omega) (by omega)
    have hsa := BitIter.sub_addr hw (p.add n) (n - k)
    cases hg with
    | right _ _ g1 g2 g3 =>
      rw [if_neg (by omega)]
      dsimp only
      rw [if_pos g2]
      exact s_add (.inr (s_sub (.inr (s_bind' (f_getWord hs (by omega)) fun _ => s_add (.inr (s_left (s_shiftRight h he (.inr g3))))))))
    | swaps _ _ g1 g2 g3 g4 =>
      rw [if_neg (by omega)]
      dsimp only
      rw [if_neg (by omega)]
      obtain ⟨s0, s1, s2⟩ := fullSwaps_le (n := n - (n - k)) (k := n - k) (by omega) (by omega)
      have hX := Int.mul_nonneg s0 (show 0 ≤ n - k by omega)
      refine s_add (.inr (s_sub (.inr (s_bind (f_rotBwdSwaps (by omega) _ _ _ hs he (by omega) (by omega)) ?_))))
      rintro ⟨p', q'⟩ ⟨hp', hq', ep, eq⟩
      simp only at hp' hq' ep eq ⊢
      rw [s2] at ep eq s1
      generalize Int.tdiv (n - (n - k)) (n - k) % 2 ^ 32 * (n - k) = X at *
      have hpr := hp'.sub (n := n - (n - k) - X) (by omega) (by omega)
      have hqr := hq'.sub (n := n - (n - k) - X) (by omega) (by omega)
      have hpra := BitIter.sub_addr hw p' (n - (n - k) - X)
      have hqra := BitIter.sub_addr hw q' (n - (n - k) - X)
      have hpp : p'.sub (n - (n - k) - X) = p := BitIter.addr_inj hpr.valid h.valid (by omega)
      refine s_sub (.inr (s_sub (.inr ?_)))
      rw [hpp] at hpra hpr ⊢
      have her := h.add (n := n - (n - k) - X) (by omega) (by omega)
      have hera := BitIter.add_addr hw p (n - (n - k) - X)
      refine s_add (.inr (s_bind' (f_swapRanges h her hqr (by omega)) fun _ => ?_))
      have hte := Int.tmod_eq_emod_of_nonneg (a := n) (b := n - k) (by omega)
      have ht0 := Int.tmod_nonneg (a := n) (n - k) (by omega)
      have ht1 := Int.tmod_lt_of_pos n (show 0 < n - k by omega)
      rw [← hte] at g3 g4
      rw [if_neg g3]
      exact ih _ _ _ h (by omega) (by omega) (by omega) g4

theorem f_rotateViaRaw {A : Arr} {S : ShiftSem w} {first nFirst last : BitIter w} (h : A.Has first) (hn : A.Has nFirst) (hl : A.Has last)
    (h1 : first.addr < nFirst.addr) (h2 : nFirst.addr < last.addr)
    (hg : nFirst.addr - first.addr ≠ last.addr - nFirst.addr → ¬ RotateAtStart A first (nFirst.addr - first.addr) (last.addr - first.addr)) :
    Fits (rotateViaRaw A S first nFirst last) (BitLib.rotateViaRaw S first nFirst last) fun _ => True := by
  unfold Ptr.rotateViaRaw BitLib.rotateViaRaw
  have hlo := h.lo_le
  have hhi := hl.le_hi
  simp only [BitIter.diff_eq]
  refine f_ite (fun hc => ?_) fun hc => ?_
  · exact f_bind' (f_swapRanges h hn hn (by omega)) fun _ => f_pure trivial
  · have ha := h.add (n := last.addr - nFirst.addr) (by omega) (by omega)
    exact f_add ha (f_bind' (f_rotLoop _ _ _ _ h (by omega) (by omega) (by omega) (hg (by omega))) fun _ => f_pure trivial)

theorem s_rotateViaRaw {A : Arr} {S : ShiftSem w} {first nFirst last : BitIter w} (h : A.Has first) (hl : A.Has last)
    (h1 : first.addr < nFirst.addr) (h2 : nFirst.addr < last.addr) (hne : nFirst.addr - first.addr ≠ last.addr - nFirst.addr)
    (hg : RotateAtStart A first (nFirst.addr - first.addr) (last.addr - first.addr)) : Stuck (rotateViaRaw A S first nFirst last) := by
  unfold Ptr.rotateViaRaw
  have hhi := hl.le_hi
  simp only [BitIter.diff_eq]
  rw [if_neg (by omega)]
  exact s_add (.inr (s_left (s_rotLoop _ _ _ _ h (by omega) (by omega) (by omega) hg)))

theorem f_rotateSingle {A : Arr} {S : ShiftSem w} {first nFirst last : BitIter w} (h : A.Has first) (hn : A.Has nFirst) (hl : A.Has last)
    (h1 : first.addr ≤ nFirst.addr) (h2 : nFirst.addr ≤ last.addr) (hs : first.base + (if last.pos = 0 then 1 else 0) = last.base) :
    Fits (rotateSingle A S first nFirst last) (BitLib.rotateSingle S first nFirst last) fun _ => True := by
  unfold Ptr.rotateSingle BitLib.rotateSingle
  have hw := h.pos_w
  have hlo := h.lo_le
  have hlob := h.lo_base
  have hhi := hl.le_hi
  have hhib := hl.base_hi
  have e1 := Arr.addr_eq first
  have e2 := Arr.addr_eq nFirst
  have e3 := Arr.addr_eq last
  have hv := h.valid
  have hnv := hn.valid
  have hlv := hl.valid
  unfold BitIter.Valid at hv hnv hlv
  have b1 := Arr.base_mono hnv h1
  have b2 := Arr.base_mono hlv h2
  refine f_ite (fun hc => ?_) fun hc => ?_
  · rw [if_pos hc.2] at hs
    have em : last.base * (w : Int) = first.base * w + w := by rw [← hs, mul_add_one]
    have ha := h.add (n := ((w - nFirst.pos : Nat) : Int)) (by omega) (by omega)
    exact f_bind' (f_up _) fun _ => f_bind' (f_up _) fun _ => f_bind' (f_up _) fun _ => f_bind' (f_up _) fun _ => f_add0 ha trivial
  · have key : A.lo ≤ (first.add ((subSize (if last.pos = 0 then w else last.pos) nFirst.pos : Nat) : Int)).base ∧
        (first.add ((subSize (if last.pos = 0 then w else last.pos) nFirst.pos : Nat) : Int)).base ≤ A.hi := by
      by_cases hp : last.pos = 0
      · rw [if_pos hp] at hs ⊢
        rw [subSize_le (by omega)]
        have em : last.base * (w : Int) = first.base * w + w := by rw [← hs, mul_add_one]
        have hva := BitIter.add_valid hw first ((w - nFirst.pos : Nat) : Int)
        unfold BitIter.Valid at hva
        have haa := BitIter.add_addr hw first ((w - nFirst.pos : Nat) : Int)
        have hab := Arr.addr_eq (first.add ((w - nFirst.pos : Nat) : Int))
        refine ⟨Arr.base_ge hva (by omega), ?_⟩
        have : (first.add ((w - nFirst.pos : Nat) : Int)).base < last.base + 1 := Arr.base_lt (by rw [mul_add_one]; omega)
        omega
      · rw [if_neg hp] at hs ⊢
        have em : last.base * (w : Int) = first.base * w := by rw [← hs, Int.add_zero]
        have em' : nFirst.base * (w : Int) = first.base * w := by rw [show nFirst.base = first.base by omega]
        rw [subSize_le (by omega)]
        have ha := h.add (n := ((last.pos - nFirst.pos : Nat) : Int)) (by omega) (by omega)
        exact ⟨ha.lo_base, ha.base_hi⟩
    exact f_bind' (f_up _) fun _ => f_bind' (f_up _) fun _ => f_bind' (f_up _) fun _ => f_bind' (f_up _) fun _ => f_bind' (f_up _) fun _ =>
      f_bind' (f_up _) fun _ => f_addB0 key trivial

theorem f_rotate {A : Arr} {S : ShiftSem w} {first nFirst last : BitIter w} (h : A.Has first) (hn : A.Has nFirst) (hl : A.Has last)
    (hg : ¬ RotateBad A first nFirst last) :
    Fits (rotate A S first nFirst last) (BitLib.rotate S first nFirst last) fun _ => True := by
  unfold Ptr.rotate BitLib.rotate
  have hw := h.pos_w
  have hlo := h.lo_le
  have hlob := h.lo_base
  have hhi := hl.le_hi
  have hhib := hl.base_hi
  have hv := h.valid
  have hnv := hn.valid
  have hlv := hl.valid
  have e1 := Arr.addr_eq first
  have e3 := Arr.addr_eq last
  refine f_bind (f_viable _ _) fun _ v1 => f_bind (f_viable _ _) fun _ v2 => f_bind (f_viable _ _) fun _ v3 => f_ite (fun _ => f_pure trivial) fun hne => ?_
  have hne' : first.addr ≠ nFirst.addr := fun e => hne ((BitIter.beq_iff hv hnv).2 e)
  have hbm := Arr.base_mono hlv v3
  have h0 : last.pos = 0 → first.base < last.base := fun hp => Arr.lt_of_mul (w := w) (by omega)
  refine f_form (by split <;> omega) (f_ite (fun hs => f_rotateSingle h hn hl v1 v2 hs) fun hs => ?_)
  refine f_isWithin h hn v1 (f_ite (fun hb => ?_) fun hb => f_isWithin hn hl v2 (f_ite (fun hb' => ?_) fun hb' => ?_))
  · have hkw := (isWithin_iff w first nFirst hv hnv v1).1 hb
    refine f_bind (f_distance _ _) fun k hk => ?_
    have hadd : first.add k = nFirst := BitIter.addr_inj (BitIter.add_valid hw _ _) hnv (by rw [BitIter.add_addr hw]; omega)
    refine f_bind' (f_getWord h (by have := hn.le_hi; omega)) fun _ => f_bind (f_shiftLeft h hl (by rw [hadd]; exact ⟨hn.lo_base, hn.base_hi⟩)) fun t ht => ?_
    obtain ⟨t1, t2⟩ := ht (by omega) (by omega)
    exact f_bind' (f_writeWord t1 (by omega)) fun _ => f_pure trivial
  · have hkw := mt (isWithin_iff w first nFirst hv hnv v1).2 hb
    have hpw := (isWithin_iff w nFirst last hnv hlv v2).1 hb'
    refine f_bind (f_distance _ _) fun p hp => ?_
    have hsub : last.sub p = nFirst := by
      have hs := hl.sub (n := p) (by have := hn.lo_le; omega) (by omega)
      exact BitIter.addr_inj hs.valid hnv (by rw [BitIter.sub_addr hw]; omega)
    refine f_bind' (f_getWord hn (by omega)) fun _ => f_bind' (f_shiftRight h hl (by rw [hsub]; exact ⟨hn.lo_base, hn.base_hi⟩) fun hr => ?_)
      fun _ => f_bind' (f_writeWord h (by omega)) fun _ => f_pure trivial
    refine hg ⟨by omega, by omega, .right _ _ (by omega) (by omega) ?_⟩
    have hadd : first.add (last.addr - first.addr) = last := BitIter.addr_inj (BitIter.add_valid hw _ _) hlv (by rw [BitIter.add_addr hw]; omega)
    rw [hadd, show last.addr - first.addr - (nFirst.addr - first.addr) = p by omega]
    exact hr
  · have hkw := mt (isWithin_iff w first nFirst hv hnv v1).2 hb
    have hpw := mt (isWithin_iff w nFirst last hnv hlv v2).2 hb'
    exact f_rotateViaRaw h hn hl (by omega) (by omega) fun hne hr => hg ⟨by omega, hne, hr⟩

theorem s_rotate {A : Arr} {S : ShiftSem w} {first nFirst last : BitIter w} (h : A.Has first) (hn : A.Has nFirst) (hl : A.Has last)
    (hg : RotateBad A first nFirst last) : Stuck (rotate A S first nFirst last) := by
  obtain ⟨g1, g2, g3⟩ := hg
  unfold Ptr.rotate
  have hw := h.pos_w
  have hv := h.valid
  have hnv := hn.valid
  have hlv := hl.valid
  have hhib := hl.base_hi
  have hvv := hv
  unfold BitIter.Valid at hvv
  have e1 := Arr.addr_eq first
  have e3 := Arr.addr_eq last
  refine s_bind (f_viable _ _) fun _ v1 => s_bind (f_viable _ _) fun _ v2 => s_bind (f_viable _ _) fun _ v3 => ?_
  rw [if_neg (fun hb => by have := (BitIter.beq_iff hv hnv).1 hb; omega)]
  refine s_form (.inr ?_)
  rw [if_neg]
  swap
  · intro hs
    split at hs
    · have : last.base * (w : Int) = first.base * w + w := by rw [← hs, mul_add_one]
      omega
    · have : last.base * (w : Int) = first.base * w := by rw [← hs, Int.add_zero]
      have := hlv
      unfold BitIter.Valid at this
      omega
  rw [isWithin_eq h hn v1, pure_bind, if_neg (fun hb => by have := (isWithin_iff w first nFirst hv hnv v1).1 hb; omega),
    isWithin_eq hn hl v2, pure_bind]
  by_cases hb : BitLib.isWithin w nFirst last = true
  · have hpw := (isWithin_iff w nFirst last hnv hlv v2).1 hb
    rw [if_pos hb]
    cases g3 with
    | swaps _ _ c1 c2 => omega
    | right _ _ c1 c2 c3 =>
      have hadd : first.add (last.addr - first.addr) = last := BitIter.addr_inj (BitIter.add_valid hw _ _) hlv (by rw [BitIter.add_addr hw]; omega)
      rw [hadd] at c3
      refine s_bind (f_distance _ _) fun p hp => s_bind' (f_getWord hn (by have := hl.le_hi; omega)) fun _ => s_left (s_shiftRight h hl (.inr ?_))
      rw [show p = last.addr - first.addr - (nFirst.addr - first.addr) by omega]
      exact c3
  · have hpw := mt (isWithin_iff w nFirst last hnv hlv v2).2 hb
    rw [if_neg hb]
    exact s_rotateViaRaw h hl (by omega) (by omega) g2 g3

end Ptr
end BitLib
