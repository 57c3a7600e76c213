import Verif.Model.Cpp20
import Verif.SpecCpp20
import Verif.Lemmas.Rotate
import Verif.Lemmas.ShiftRight
/-
Lemmas for C96: the C++20 build follows the C++17 build except in the vacated words.
-/
namespace BitLib
variable {w : Nat} {α β : Type}

/-- Whenever `x` succeeds, `y` succeeds with the same result, and the two memories agree outside `P`. -/
def Follows20 (P : Int → Prop) (x y : M w α) : Prop :=
  ∀ m r m1, x m = .ok (r, m1) → ∃ m2, y m = .ok (r, m2) ∧ SameMapped m1 m2 ∧ ∀ i, ¬ P i → bitAt m2 i = bitAt m1 i

theorem Follows20.refl (P : Int → Prop) (x : M w α) : Follows20 P x x := fun _ _ m1 h => ⟨m1, h, fun _ => rfl, fun _ _ => rfl⟩

theorem Follows20.bind {P : Int → Prop} {x : M w α} {f g : α → M w β} (h : ∀ a, Follows20 P (f a) (g a)) :
    Follows20 P (x >>= f) (x >>= g) := by
  intro m r m1 hx
  have h' : (Except.bind (x m) fun p => f p.1 p.2) = .ok (r, m1) := hx
  cases he : x m with
  | error e => rw [he] at h'; cases h'
  | ok p =>
    rw [he] at h'
    obtain ⟨m2, e2, hs⟩ := h p.1 p.2 r m1 h'
    refine ⟨m2, ?_, hs⟩
    show (Except.bind (x m) fun p => g p.1 p.2) = _
    rw [he]
    exact e2

theorem Follows20.ite {P : Int → Prop} {c : Prop} [Decidable c] {x x' y y' : M w α} (h1 : c → Follows20 P x x') (h2 : ¬ c → Follows20 P y y') :
    Follows20 P (if c then x else y) (if c then x' else y') := by
  split_ifs with h
  · exact h1 h
  · exact h2 h

theorem Follows20.mono {P Q : Int → Prop} {x y : M w α} (h : Follows20 P x y) (hPQ : ∀ i, P i → Q i) : Follows20 Q x y := by
  intro m r m1 hx
  obtain ⟨m2, e, hs, hb⟩ := h m r m1 hx
  exact ⟨m2, e, hs, fun i hi => hb i fun hp => hi (hPQ i hp)⟩

theorem bitAt_scribble {a b : Int} {f : Mem w → Int → BitVec w} {m : Mem w} (i : Int) :
    bitAt (fun i => if a ≤ i ∧ i < b then (m i).map fun _ => f m i else m i) i =
      if a ≤ i / (w : Int) ∧ i / (w : Int) < b then (m (i / w)).map fun _ => (f m (i / w)).getLsbD (i % w).toNat else bitAt m i := by
  unfold bitAt
  split_ifs with h
  · beta_reduce
    rw [if_pos h]; simp; rfl
  · beta_reduce
    rw [if_neg h]

theorem word_le_iff (hw : 0 < w) {a i : Int} : a ≤ i / (w : Int) ↔ a * w ≤ i := by
  rw [Int.le_ediv_iff_mul_le (by omega)]

theorem word_lt_iff (hw : 0 < w) {b i : Int} : i / (w : Int) < b ↔ i < b * w := by
  rw [Int.ediv_lt_iff_lt_mul (by omega)]

/-- The memory after `scribble`. -/
def scribbled (a b : Int) (f : Mem w → Int → BitVec w) (m : Mem w) : Mem w :=
  fun i => if a ≤ i ∧ i < b then (m i).map fun _ => f m i else m i

theorem scribbled_off (hw : 0 < w) {a b : Int} {f : Mem w → Int → BitVec w} {m : Mem w} {i : Int} (h : ¬ (a * w ≤ i ∧ i < b * w)) :
    bitAt (scribbled a b f m) i = bitAt m i := by
  unfold scribbled
  rw [bitAt_scribble, if_neg]
  rwa [word_le_iff hw, word_lt_iff hw]

theorem scribbled_same {a b : Int} {f : Mem w → Int → BitVec w} {m : Mem w} : SameMapped m (scribbled a b f m) := by
  intro i
  unfold scribbled
  rw [bitAt_scribble]
  split_ifs with h
  · unfold bitAt; simp
  · rfl

theorem ok_bind {x : M w α} {f : α → M w β} {m : Mem w} {a : α} {m1 : Mem w} (h : x m = .ok (a, m1)) : (x >>= f) m = f a m1 := by
  show (Except.bind (x m) fun p => f p.1 p.2) = _
  rw [h]; rfl

theorem bind_ok {x : M w α} {f : α → M w β} {m : Mem w} {b : β} {m2 : Mem w} (h : (x >>= f) m = .ok (b, m2)) :
    ∃ a m1, x m = .ok (a, m1) ∧ f a m1 = .ok (b, m2) := by
  have h' : (Except.bind (x m) fun p => f p.1 p.2) = .ok (b, m2) := h
  cases he : x m with
  | error e => rw [he] at h'; cases h'
  | ok p => rw [he] at h'; exact ⟨p.1, p.2, rfl, h'⟩

theorem scribble_run {a b : Int} {f : Mem w → Int → BitVec w} {m : Mem w} : scribble a b f m = .ok ((), scribbled a b f m) := rfl

theorem stdCopyN_ret : ∀ (n : Nat) {s d r : Int} {m m1 : Mem w}, stdCopyN n s d m = .ok (r, m1) → r = d + n
  | 0, s, d, r, m, m1, h => by cases h; simp
  | n+1, s, d, r, m, m1, h => by
    obtain ⟨_, _, _, h⟩ := bind_ok h
    obtain ⟨_, _, _, h⟩ := bind_ok h
    have := stdCopyN_ret n h
    omega

theorem stdCopy_ret {a b d r : Int} {m m1 : Mem w} (hab : a ≤ b) (h : stdCopy a b d m = .ok (r, m1)) : r = d + (b - a) := by
  obtain ⟨n, m0, h0, h⟩ := bind_ok h
  have := stdCopyN_ret n h
  have h0' : wp (wordDist a b) m (fun n _ => (n : Int) = b - a) := by
    rw [wp_wordDist]; exact ⟨hab, by omega⟩
  obtain ⟨n', _, e, hn⟩ := h0'
  rw [h0] at e
  cases e
  omega

theorem load_ok {a : Int} {m m1 : Mem w} {x : BitVec w} (h : load a m = .ok (x, m1)) : m a = some x ∧ m1 = m := by
  have : wp (load a) m fun y m2 => y = x ∧ m2 = m1 := ⟨x, m1, h, rfl, rfl⟩
  rw [wp_load] at this
  obtain ⟨y, h1, h2, h3⟩ := this
  exact ⟨by rw [h1, h2], h3.symm⟩

theorem writeWord_mapped {S : ShiftSem w} {x : BitVec w} {a : Int} {len : Nat} {m m1 : Mem w} (hl : len ≠ w)
    (h : writeWord S x ⟨a, 0⟩ len m = .ok ((), m1)) : ∃ y, m a = some y := by
  unfold writeWord at h
  rw [if_neg (by simp [hl])] at h
  obtain ⟨t, m0, h0, h⟩ := bind_ok h
  have e0 : m0 = m := by
    have : wp (lift (S.shl x 0)) m fun y m2 => y = t ∧ m2 = m0 := ⟨t, m0, h0, rfl, rfl⟩
    rw [wp_lift] at this
    obtain ⟨_, _, _, h3⟩ := this
    exact h3.symm
  obtain ⟨_, _, h1, _⟩ := bind_ok h
  obtain ⟨y, _, h2, _⟩ := bind_ok h1
  exact ⟨y, by rw [← e0]; exact (load_ok h2).1⟩

/-- The end of `shift_left` after the words have moved to `[.., fb)`: the bits of the last partial word are written at `fb`. -/
theorem tail_left (S : ShiftSem w) {fb : Int} {last : BitIter w} {f : Mem w → Int → BitVec w} (hl : last.Valid)
    {m m2 : Mem w} {r : BitIter w}
    (h : (if last.pos ≠ 0 then do
        let x ← load last.base
        writeWord S x ⟨fb, 0⟩ last.pos
        pure ((⟨fb, 0⟩ : BitIter w).add last.pos)
      else pure ⟨fb, 0⟩ : M w (BitIter w)) m = .ok (r, m2)) :
    ∃ m2', (if last.pos ≠ 0 then do
        let x ← load last.base
        writeWord S x ⟨fb, 0⟩ last.pos
        pure ((⟨fb, 0⟩ : BitIter w).add last.pos)
      else pure ⟨fb, 0⟩ : M w (BitIter w)) (scribbled fb last.base f m) = .ok (r, m2') ∧ SameMapped m2 m2' ∧
      ∀ i, ¬ (fb * w + last.pos ≤ i ∧ i < last.base * w) → bitAt m2' i = bitAt m2 i := by
  have hl' : last.pos < w := hl
  have hw : 0 < w := by omega
  by_cases hlp : last.pos ≠ 0
  · rw [if_pos hlp] at h ⊢
    obtain ⟨x, m0, h0, h2⟩ := bind_ok h
    obtain ⟨hx, rfl⟩ := load_ok h0
    obtain ⟨⟨⟩, m1, h1, h3⟩ := bind_ok h2
    cases h3
    obtain ⟨y, hy⟩ := writeWord_mapped (by omega) h1
    have ea : (⟨fb, 0⟩ : BitIter w).addr = fb * w := by
      show fb * (w : Int) + (0 : Nat) = _
      omega
    have hmp : Mapped m0 (fb * w) (fb * w + last.pos) := by
      intro i hi1 hi2
      have : i / (w : Int) = fb := by
        rw [show i = fb * w + (i - fb * w) by omega, mul_add_ediv hw (by omega) (by omega)]
      unfold bitAt
      rw [this, hy]; rfl
    have hmp' : Mapped (scribbled fb last.base f m0) (fb * w) (fb * w + last.pos) := by
      intro i hi1 hi2
      rw [scribbled_same i]; exact hmp i hi1 hi2
    have w1 : wp (writeWord S x ⟨fb, 0⟩ last.pos) m0 fun _ m' =>
        Wrote m0 m' (fb * w) (fb * w + last.pos) fun i => some (x.getLsbD (i - fb * w).toNat) := by
      refine wp_writeWord S (show 0 < w from hw) (by omega) (by omega) (by rw [ea]; exact hmp) ?_
      intro m' hm'
      rwa [ea] at hm'
    have w2 : wp (writeWord S x ⟨fb, 0⟩ last.pos) (scribbled fb last.base f m0) fun _ m' =>
        Wrote (scribbled fb last.base f m0) m' (fb * w) (fb * w + last.pos) fun i => some (x.getLsbD (i - fb * w).toNat) := by
      refine wp_writeWord S (show 0 < w from hw) (by omega) (by omega) (by rw [ea]; exact hmp') ?_
      intro m' hm'
      rwa [ea] at hm'
    obtain ⟨_, m1', e1, wr1⟩ := w1
    rw [h1] at e1
    cases e1
    obtain ⟨⟨⟩, m2', e2, wr2⟩ := w2
    refine ⟨m2', ?_, ?_, ?_⟩
    · have hload : load last.base (scribbled fb last.base f m0) = .ok (x, scribbled fb last.base f m0) := by
        have : scribbled fb last.base f m0 last.base = some x := by
          unfold scribbled
          rw [if_neg (by omega)]; exact hx
        have hw' : wp (load last.base) (scribbled fb last.base f m0) fun y m' => y = x ∧ m' = scribbled fb last.base f m0 := by
          rw [wp_load]; exact ⟨x, this, rfl, rfl⟩
        obtain ⟨_, _, e, rfl, rfl⟩ := hw'
        exact e
      rw [ok_bind hload, ok_bind e2]
      rfl
    · intro i
      rw [wr2 i, wr1 i]
      split_ifs with hc
      · rfl
      · exact scribbled_same i
    · intro i hi
      rw [wr2 i, wr1 i]
      split_ifs with hc
      · rfl
      · exact scribbled_off hw (by omega)
  · rw [if_neg hlp] at h ⊢
    cases h
    exact ⟨_, rfl, scribbled_same, fun i hi => scribbled_off hw (by omega)⟩

theorem follows_leftMain (J : Vacated w) (S : ShiftSem w) {first middle last : BitIter w} {n : Int} (hl : last.Valid) (hn : 0 < n) :
    Follows20 (fun i => last.addr - n ≤ i ∧ i < last.addr) (shiftLeftMain S first middle last n) (shiftLeftMain20 J S first middle last n) := by
  have hl' : last.pos < w := hl
  have hw : 0 < w := by omega
  have hla : last.addr = last.base * w + last.pos := rfl
  unfold shiftLeftMain shiftLeftMain20
  refine .ite (fun _ => .refl _ _) fun _ => .bind fun _ => ?_
  dsimp only
  refine .ite (fun _ => ?_) fun _ => .refl _ _
  have ht : 0 ≤ Int.tdiv n w := Int.tdiv_nonneg (by omega) (by omega)
  have hmul : Int.tdiv n w * w ≤ n := by
    have h1 := Int.tmod_add_tdiv_mul n w
    have h2 : 0 ≤ Int.tmod n w := Int.tmod_nonneg _ (by omega)
    omega
  generalize Int.tdiv n w = ws at ht hmul
  unfold wordShiftLeft stdShiftLeft
  rw [if_neg (show ¬ ws < 0 by omega)]
  by_cases h0 : ws = 0
  · rw [if_pos (by omega), if_pos h0]; exact .refl _ _
  rw [if_neg (by omega), if_neg h0]
  by_cases h1 : ws ≥ last.base - first.base
  · rw [if_pos h1, if_pos h1]; exact .refl _ _
  rw [if_neg h1, if_neg h1]
  intro m r m2 h
  obtain ⟨fb, m1, hc, h⟩ := bind_ok h
  have hfb := stdCopy_ret (by omega) hc
  have hfb' : fb = last.base - ws := by omega
  subst hfb'
  obtain ⟨m2', e, hs, hb⟩ := tail_left S (f := J.left first.base last.base ws) hl h
  refine ⟨m2', ?_, hs, fun i hi => hb i fun hc => hi ⟨?_, ?_⟩⟩
  · rw [ok_bind (a := last.base - ws) (m1 := scribbled (last.base - ws) last.base (J.left first.base last.base ws) m1)]
    · exact e
    · rw [ok_bind hc, ok_bind scribble_run]
      rfl
  · have := hc.1
    rw [Int.sub_mul] at this
    omega
  · omega

theorem follows_left (J : Vacated w) (S : ShiftSem w) {first last : BitIter w} {n : Int} (hl : last.Valid) (hn : 0 < n) :
    Follows20 (fun i => last.addr - n ≤ i ∧ i < last.addr) (shiftLeft S first last n) (shiftLeft20 J S first last n) := by
  unfold shiftLeft shiftLeft20
  refine .bind fun _ => .bind fun d => ?_
  dsimp only
  refine .ite (fun _ => .refl _ _) fun _ => .ite (fun _ => .refl _ _) fun _ => .ite (fun _ => .refl _ _) fun _ =>
    .ite (fun _ => .refl _ _) fun _ => .bind fun _ => ?_
  refine .ite (fun _ => .bind fun _ => ?_) fun _ => ?_
  all_goals exact .ite (fun _ => .bind fun _ => follows_leftMain J S hl hn) fun _ => follows_leftMain J S hl hn

/-! ### shift_right -/

theorem bind_congr_ok {x : M w α} {f g : α → M w β} {m : Mem w} (h : ∀ a m1, x m = .ok (a, m1) → f a m1 = g a m1) :
    (x >>= f) m = (x >>= g) m := by
  show (Except.bind (x m) fun p => f p.1 p.2) = (Except.bind (x m) fun p => g p.1 p.2)
  cases he : x m with
  | error e => rfl
  | ok p => exact h p.1 p.2 he

theorem distance_ok {a b : BitIter w} {m m1 : Mem w} {d : Int} (h : distance a b m = .ok (d, m1)) :
    d = b.addr - a.addr ∧ a.addr ≤ b.addr ∧ m1 = m := by
  have : wp (distance a b) m fun y m2 => y = d ∧ m2 = m1 := ⟨d, m1, h, rfl, rfl⟩
  rw [wp_distance] at this
  exact ⟨this.2.1.symm, this.1, this.2.2.symm⟩

/-- The last action of `shift_right` in a C++20 build. -/
def spoil (J : Vacated w) (first last : BitIter w) (n : Int) (r : BitIter w) : M w (BitIter w) :=
  if WordMove w first.addr last.addr n then do
    scribble first.base (first.base + n / w) (J.right first.base last.base (n / w))
    pure r
  else pure r

theorem rightMain20_eq (J : Vacated w) (S : ShiftSem w) {first middle last last0 : BitIter w} {n : Int}
    (hf : first.Valid) (hl0 : last0.Valid) (hmi : middle.Valid) (hn : 0 < n)
    (hl : last = ⟨last0.base, 0⟩) (hm : middle.addr = last.addr - n) :
    shiftRightMain20 J S first middle last n = shiftRightMain S first middle last n >>= spoil J first last0 n := by
  subst hl
  have hf' : first.pos < w := hf
  have hl' : last0.pos < w := hl0
  have hmi' : middle.pos < w := hmi
  have hw : 0 < w := by omega
  have hfa : first.addr = first.base * w + first.pos := rfl
  have hla : last0.addr = last0.base * w + last0.pos := rfl
  have hma : middle.addr = middle.base * w + middle.pos := rfl
  replace hm : middle.addr = last0.base * w - n := by
    rw [hm]; show last0.base * (w : Int) + (0 : Nat) - n = _; omega
  have hdn : middle.pos = 0 ↔ n % (w : Int) = 0 := by
    constructor
    · intro h0
      rw [show n = (last0.base - middle.base) * w by rw [Int.sub_mul]; omega, Int.mul_emod_left]
    · intro h0
      have hd : (w : Int) ∣ n := Int.dvd_of_emod_eq_zero h0
      have : (w : Int) ∣ middle.pos := by
        rw [show (middle.pos : Int) = (last0.base - middle.base) * w - n by rw [Int.sub_mul]; omega]
        exact Int.dvd_sub (Int.dvd_mul_left _ _) hd
      have := Int.eq_zero_of_dvd_of_nonneg_of_lt (by omega) (by omega) this
      omega
  unfold shiftRightMain20 shiftRightMain
  dsimp only
  by_cases h0 : middle.pos = 0
  · rw [if_pos h0, if_pos h0]
    have hmod := hdn.1 h0
    have hq : Int.tdiv n w = n / w := Int.tdiv_eq_ediv_of_nonneg (by omega)
    have hnq : n = n / w * w := by have := Int.emod_add_mul_ediv n w; rw [Int.mul_comm] at this; omega
    have hqp : 0 < n / (w : Int) := by
      by_contra hc
      have := Int.mul_le_mul_of_nonneg_right (show n / (w : Int) ≤ 0 by omega) (show (0 : Int) ≤ w by omega)
      omega
    have hend : (last0.addr - n) / (w : Int) = last0.base - n / w := by
      rw [hla, sub_ediv_of_dvd hl' hmod]
    have hst : first.addr / (w : Int) = first.base := by rw [hfa, mul_add_ediv hw (by omega) (by omega)]
    have hiff : WordMove w first.addr last0.addr n ↔ n / w < last0.base - first.base := by
      unfold WordMove
      rw [hend, hst]
      constructor
      · rintro ⟨_, h⟩; omega
      · intro h; exact ⟨hmod, by omega⟩
    rw [hq]
    unfold wordShiftRight stdShiftRight spoil
    simp only [hiff]
    rw [if_neg (by omega : ¬ n / (w : Int) < 0), if_neg (by omega : ¬ n / (w : Int) = 0), if_neg (by omega : ¬ n / (w : Int) ≤ 0)]
    by_cases h1 : n / (w : Int) ≥ last0.base - first.base
    · rw [if_pos h1, if_pos h1]
      simp only [if_neg (show ¬ n / (w : Int) < last0.base - first.base by omega), pure_bind]
    · rw [if_neg h1, if_neg h1]
      simp only [if_pos (show n / (w : Int) < last0.base - first.base by omega), bind_assoc, pure_bind]
  · rw [if_neg h0, if_neg h0]
    have hno : ¬ WordMove w first.addr last0.addr n := fun h => h0 (hdn.2 h.1)
    have : spoil J first last0 n = pure := by
      funext r
      unfold spoil
      rw [if_neg hno]
    rw [this, bind_pure]

/-- In a C++20 build `shift_right` does what it does in a C++17 build and then leaves the vacated words to the library. -/
theorem shiftRight20_eq (J : Vacated w) (S : ShiftSem w) {first last : BitIter w} {n : Int} (hf : first.Valid) (hl : last.Valid)
    (hn : 0 < n) : shiftRight20 J S first last n = shiftRight S first last n >>= spoil J first last n := by
  have hf' : first.pos < w := hf
  have hl' : last.pos < w := hl
  have hw : 0 < w := by omega
  have hfa : first.addr = first.base * w + first.pos := rfl
  have hla : last.addr = last.base * w + last.pos := rfl
  have hsub := BitIter.sub_addr hw last n
  have keep : ¬ WordMove w first.addr last.addr n → spoil J first last n = pure := by
    intro h
    funext r
    unfold spoil
    rw [if_neg h]
  have big : WordMove w first.addr last.addr n → (w : Int) ≤ n ∧ first.addr < (last.addr - n) / w * w := by
    rintro ⟨h1, h2⟩
    refine ⟨Int.le_of_dvd hn (Int.dvd_of_emod_eq_zero h1), ?_⟩
    exact (word_lt_iff hw).1 h2
  unfold shiftRight20 shiftRight
  rw [bind_assoc]
  funext m
  refine bind_congr_ok fun d m1 hd => ?_
  obtain ⟨rfl, hle, rfl⟩ := distance_ok hd
  dsimp only
  rw [if_neg (by omega : ¬ n ≤ 0), if_neg (by omega : ¬ n ≤ 0)]
  by_cases h1 : n ≥ last.addr - first.addr
  · rw [if_pos h1, if_pos h1, pure_bind, keep]
    intro hc
    have := big hc
    have h3 : (last.addr - n) / (w : Int) * w ≤ last.addr - n := (word_le_iff hw).1 (Int.le_refl _)
    omega
  rw [if_neg h1, if_neg h1]
  by_cases h2 : first.base + (if last.pos = 0 then 1 else 0) = last.base
  · rw [if_pos h2, if_pos h2, keep]
    · simp only [bind_pure]
    · intro hc
      have := big hc
      have hlen : last.addr - first.addr ≤ w := by
        split_ifs at h2 with hp
        · rw [hla, hfa, ← h2, Int.add_mul]; omega
        · rw [Int.add_zero] at h2; rw [hla, hfa, ← h2]; omega
      omega
  rw [if_neg h2, if_neg h2]
  by_cases h3 : last.pos ≠ 0
  · rw [if_pos h3, if_pos h3, bind_assoc]
    refine bind_congr_ok fun dm m2 hdm => ?_
    obtain ⟨rfl, _, rfl⟩ := distance_ok hdm
    simp only [bind_assoc]
    refine bind_congr_ok fun x m3 _ => bind_congr_ok fun _ m4 _ => ?_
    generalize hb : min last.pos ((last.sub n).addr - first.addr).toNat = b
    have ha1 := BitIter.sub_addr hw (last.sub n) b
    have ha2 := BitIter.sub_addr hw last b
    by_cases hbeq : ((last.sub n).sub b).beq first
    · rw [if_pos hbeq, if_pos hbeq, pure_bind, keep]
      rw [BitIter.beq_iff (BitIter.sub_valid hw _ _) hf] at hbeq
      rintro hc
      have h4 := big hc
      have h5 : (last.addr - n) / (w : Int) * w = last.base * w - n := by
        rw [hla, sub_ediv_of_dvd hl' hc.1, Int.sub_mul]
        have := Int.emod_add_mul_ediv n w
        rw [Int.mul_comm] at this
        have := hc.1
        omega
      omega
    · rw [if_neg hbeq, if_neg hbeq]
      rw [BitIter.beq_iff (BitIter.sub_valid hw _ _) hf] at hbeq
      have hbl : b = last.pos := by omega
      have hlz : last.sub b = ⟨last.base, 0⟩ := by
        refine BitIter.addr_inj (BitIter.sub_valid hw _ _) (b := ⟨last.base, 0⟩) hw ?_
        rw [ha2, hla]
        show _ = last.base * (w : Int) + (0 : Nat)
        omega
      rw [rightMain20_eq J S (last0 := last) hf hl (BitIter.sub_valid hw _ _) hn hlz (by omega)]
  · rw [if_neg h3, if_neg h3, rightMain20_eq J S (last0 := last) hf hl (BitIter.sub_valid hw _ _) hn ?_ (by omega)]
    have : last.pos = 0 := by omega
    cases last
    simp_all

/-! ### What the shifts do, whatever the library leaves behind -/

theorem left20_nonpos (J : Vacated w) (S : ShiftSem w) {first last : BitIter w} {n : Int} (hn : n ≤ 0) :
    shiftLeft20 J S first last n = shiftLeft S first last n := by
  unfold shiftLeft20 shiftLeft
  simp only [if_pos hn]

theorem right20_nonpos (J : Vacated w) (S : ShiftSem w) {first last : BitIter w} {n : Int} (hn : n ≤ 0) :
    shiftRight20 J S first last n = shiftRight S first last n := by
  unfold shiftRight20 shiftRight
  simp only [if_pos hn]

theorem left20_all (J : Vacated w) (S : ShiftSem w) {first last : BitIter w} {n : Int} {m : Mem w} (hn : last.addr - first.addr ≤ n) :
    shiftLeft20 J S first last n m = shiftLeft S first last n m := by
  unfold shiftLeft20 shiftLeft
  refine bind_congr_ok fun _ m1 _ => bind_congr_ok fun d m2 hd => ?_
  obtain ⟨rfl, _, rfl⟩ := distance_ok hd
  dsimp only
  by_cases h0 : n ≤ 0
  · rw [if_pos h0, if_pos h0]
  · rw [if_neg h0, if_neg h0, if_pos hn, if_pos hn]

theorem wp_shiftLeft20 (J : Vacated w) (S : ShiftSem w) {first last : BitIter w} {n : Int} {m : Mem w}
    {Q : BitIter w → Mem w → Prop}
    (hf : first.Valid) (hl : last.Valid) (hle : first.addr ≤ last.addr) (hm : Mapped m first.addr last.addr)
    (hfull : ¬ (first.pos = 0 ∧ last.addr - first.addr = w ∧ 0 < n ∧ n < w) ∨ S.FullShiftOk)
    (hQ0 : n ≤ 0 → Q last m) (hQ1 : 0 < n → last.addr - first.addr ≤ n → Q first m)
    (hQ : 0 < n → n < last.addr - first.addr → ∀ m' (r : BitIter w), r.Valid → r.addr = last.addr - n →
      ShiftedL m m' first.addr last.addr n → Q r m') :
    wp (shiftLeft20 J S first last n) m Q := by
  by_cases h0 : n ≤ 0
  · rw [left20_nonpos J S h0]
    exact wp_shiftLeft S hf hl hle hm hfull hQ0 hQ1 hQ
  by_cases h1 : last.addr - first.addr ≤ n
  · obtain ⟨r, m', e, q⟩ := wp_shiftLeft S hf hl hle hm hfull hQ0 hQ1 hQ
    exact ⟨r, m', by rw [left20_all J S h1]; exact e, q⟩
  obtain ⟨r, m1, e, hr, hra, hs1, hs2, hs3⟩ := wp_shiftLeft S hf hl hle hm hfull (n := n)
    (Q := fun r m' => r.Valid ∧ r.addr = last.addr - n ∧ ShiftedL m m' first.addr last.addr n) (by omega) (by omega)
    (fun _ _ m' r a b c => ⟨a, b, c⟩)
  obtain ⟨m2, e2, hsm, hb⟩ := follows_left J S hl (by omega) m r m1 e
  refine ⟨r, m2, e2, hQ (by omega) (by omega) m2 r hr hra ⟨?_, ?_, ?_⟩⟩
  · intro i hi1 hi2
    rw [hb i (by omega)]; exact hs1 i hi1 hi2
  · intro i hi
    rw [hb i (by omega)]; exact hs2 i hi
  · intro i
    rw [hsm i, hs3 i]

/-- The effect of `spoil` on a memory. -/
theorem spoil_run (J : Vacated w) {first last : BitIter w} {n : Int} {r : BitIter w} {m : Mem w} :
    spoil J first last n r m = .ok (r, if WordMove w first.addr last.addr n then
      scribbled first.base (first.base + n / w) (J.right first.base last.base (n / w)) m else m) := by
  unfold spoil
  split_ifs <;> rfl

theorem wp_shiftRight20_any (J : Vacated w) (S : ShiftSem w) {first last : BitIter w} {n : Int} {m : Mem w}
    {Q : BitIter w → Mem w → Prop}
    (hf : first.Valid) (hl : last.Valid) (hle : first.addr ≤ last.addr) (hm : Mapped m first.addr last.addr)
    (hfull : ¬ (first.pos = 0 ∧ last.addr - first.addr = w ∧ 0 < n ∧ n < w) ∨ S.FullShiftOk)
    (hQ0 : n ≤ 0 → Q first m) (hQ1 : 0 < n → last.addr - first.addr ≤ n → Q last m)
    (hQ : 0 < n → n < last.addr - first.addr → ∀ m1, ShiftedR m m1 first.addr last.addr n →
      Q (first.add n) (if WordMove w first.addr last.addr n then
        scribbled first.base (first.base + n / w) (J.right first.base last.base (n / w)) m1 else m1)) :
    wp (shiftRight20 J S first last n) m Q := by
  by_cases h0 : n ≤ 0
  · rw [right20_nonpos J S h0]
    exact wp_shiftRight S hf hl hle hm hfull hQ0 hQ1 (by omega)
  rw [shiftRight20_eq J S hf hl (by omega), wp_bind]
  have hf' : first.pos < w := hf
  have hw : 0 < w := by omega
  refine wp_shiftRight S hf hl hle hm hfull (by omega) ?_ ?_
  · intro h1 h2
    refine ⟨_, _, spoil_run J, ?_⟩
    rw [if_neg]
    · exact hQ1 h1 h2
    · rintro ⟨_, hc⟩
      have h3 := (word_lt_iff hw).1 hc
      have h4 : (last.addr - n) / (w : Int) * w ≤ last.addr - n := (word_le_iff hw).1 (Int.le_refl _)
      omega
  · intro h1 h2 m1 hs
    exact ⟨_, _, spoil_run J, hQ h1 h2 m1 hs⟩

theorem WordMove.scale {a b n : Int} (h : WordMove w a b n) : n / (w : Int) * w = n := by
  have h1 := Int.emod_add_mul_ediv n w
  rw [Int.mul_comm] at h1
  have := h.1
  omega

theorem wp_shiftRight20 (J : Vacated w) (S : ShiftSem w) {first last : BitIter w} {n : Int} {m : Mem w}
    {Q : BitIter w → Mem w → Prop}
    (hf : first.Valid) (hl : last.Valid) (hle : first.addr ≤ last.addr) (hm : Mapped m first.addr last.addr)
    (hfull : ¬ (first.pos = 0 ∧ last.addr - first.addr = w ∧ 0 < n ∧ n < w) ∨ S.FullShiftOk)
    (hv : first.pos = 0 ∨ ¬ WordMove w first.addr last.addr n)
    (hQ0 : n ≤ 0 → Q first m) (hQ1 : 0 < n → last.addr - first.addr ≤ n → Q last m)
    (hQ : 0 < n → n < last.addr - first.addr → ∀ m',
      ShiftedR m m' first.addr last.addr n → Q (first.add n) m') :
    wp (shiftRight20 J S first last n) m Q := by
  have hf' : first.pos < w := hf
  have hw : 0 < w := by omega
  have hfa : first.addr = first.base * w + first.pos := rfl
  refine wp_shiftRight20_any J S hf hl hle hm hfull hQ0 hQ1 ?_
  intro h1 h2 m1 hs
  refine hQ h1 h2 _ ?_
  by_cases hb : WordMove w first.addr last.addr n
  · rw [if_pos hb]
    have hp : first.pos = 0 := hv.resolve_right (fun h => h hb)
    obtain ⟨s1, s2, s3⟩ := hs
    have hsc := hb.scale
    have e : (first.base + n / w) * (w : Int) = first.base * w + n := by rw [Int.add_mul, hsc]
    refine ⟨?_, ?_, ?_⟩
    · intro i hi1 hi2
      rw [scribbled_off hw (by omega)]; exact s1 i hi1 hi2
    · intro i hi
      rw [scribbled_off hw (by omega)]; exact s2 i hi
    · intro i
      rw [scribbled_same i, s3 i]
  · rw [if_neg hb]; exact hs

/-! ### rotate -/

/-- `wp_rotL` in a C++20 build. -/
theorem wp_rotL20 (J : Vacated w) (S : ShiftSem w) {first last : BitIter w} {k : Nat} {m : Mem w} {Q : BitIter w → Mem w → Prop}
    (hf : first.Valid) (hl : last.Valid) (hm : Mapped m first.addr last.addr)
    (hk0 : 0 < k) (hkw : k ≤ w) (hkd : k < last.addr - first.addr)
    (hfull : ¬ (first.pos = 0 ∧ last.addr - first.addr = w))
    (hQ : ∀ m' (r : BitIter w), r.Valid → r.addr = last.addr - k →
      Rotated m m' first.addr (first.addr + k) last.addr → Q r m') :
    wp (do
      let x ← getWord S first k
      let newLast ← shiftLeft20 J S first last k
      writeWord S x newLast k
      pure newLast) m Q := by
  rw [wp_bind]
  refine wp_getWord S hf hkw hk0 (hm.sub (by omega) (by omega)) ?_
  intro x hx
  rw [wp_bind]
  refine wp_shiftLeft20 J S hf hl (by omega) hm (Or.inl (by omega)) (by omega) (by omega) ?_
  intro _ _ m1 r hr hra ⟨h1, h2, h3⟩
  rw [wp_bind]
  refine wp_writeWord S hr hkw hk0 ?_ ?_
  · rw [hra]; exact (h3.mapped hm).sub (by omega) (by omega)
  intro m2 hm2
  rw [wp_pure]
  refine hQ m2 r hr hra ?_
  rw [hra] at hm2
  intro i
  rw [hm2 i]
  beta_reduce
  split_ifs with c1 c2 c3 c3 c4
  · exfalso; omega
  · rw [← hx _ (by omega)]; congr 1; omega
  · exfalso; omega
  · rw [h1 i (by omega) (by omega)]; congr 1; omega
  · exfalso; omega
  · exact h2 i (by omega)

/-- `wp_rotR` in a C++20 build: all but the bits before the range in its first word are right, and those too unless words are moved. -/
theorem wp_rotR20 (J : Vacated w) (S : ShiftSem w) {first last from_ : BitIter w} {k : Nat} {m : Mem w} {Q : BitIter w → Mem w → Prop}
    (hf : first.Valid) (hl : last.Valid) (hv : from_.Valid) (hm : Mapped m first.addr last.addr)
    (hfr : from_.addr = last.addr - k)
    (hk0 : 0 < k) (hkw : k ≤ w) (hkd : k < last.addr - first.addr)
    (hfull : ¬ (first.pos = 0 ∧ last.addr - first.addr = w))
    (hQ : ∀ m' m1, SameMapped m m1 → (∀ i, (i < first.addr ∨ last.addr ≤ i) → bitAt m1 i = bitAt m i) →
      (∀ i, bitAt m' i = if WordMove w first.addr last.addr k ∧ first.base * w ≤ i ∧ i < first.addr then
          bitAt (scribbled first.base (first.base + (k : Int) / w) (J.right first.base last.base ((k : Int) / w)) m1) i
        else if first.addr ≤ i ∧ i < last.addr then
          (if i < first.addr + k then bitAt m (i + (last.addr - k - first.addr)) else bitAt m (i - k)) else bitAt m i) →
      Q (first.add k) m') :
    wp (do
      let x ← getWord S from_ k
      let newLast ← shiftRight20 J S first last k
      writeWord S x first k
      pure newLast) m Q := by
  have hf' : first.pos < w := hf
  have hw : 0 < w := by omega
  have hfa : first.addr = first.base * w + first.pos := rfl
  rw [wp_bind]
  refine wp_getWord S hv hkw hk0 (hm.sub (by omega) (by omega)) ?_
  intro x hx
  rw [wp_bind]
  refine wp_shiftRight20_any J S hf hl (by omega) hm (Or.inl (by omega)) (by omega) (by omega) ?_
  intro _ _ m1 ⟨h1, h2, h3⟩
  generalize hm1' : (if WordMove w first.addr last.addr k then
        scribbled first.base (first.base + (k : Int) / w) (J.right first.base last.base ((k : Int) / w)) m1 else m1) = m1'
  have h3' : SameMapped m m1' := by
    intro i
    rw [← hm1']
    split_ifs
    · rw [scribbled_same i, h3 i]
    · exact h3 i
  rw [wp_bind]
  refine wp_writeWord S hf hkw hk0 ((h3'.mapped hm).sub (by omega) (by omega)) ?_
  intro m2 hm2
  rw [wp_pure]
  refine hQ m2 m1 h3 h2 ?_
  have off : ∀ i, ¬ (WordMove w first.addr last.addr k ∧ first.base * w ≤ i ∧ i < first.base * w + k) → bitAt m1' i = bitAt m1 i := by
    intro i hi
    rw [← hm1']
    split_ifs with hb
    · have hsc := hb.scale
      rw [scribbled_off hw]
      rw [Int.add_mul, hsc]
      intro hc
      exact hi ⟨hb, hc⟩
    · rfl
  intro i
  rw [hm2 i]
  beta_reduce
  by_cases c1 : first.addr ≤ i ∧ i < first.addr + k
  · rw [if_pos c1, if_neg (by omega), if_pos (by omega), if_pos (by omega), ← hx _ (by omega)]
    congr 1; omega
  rw [if_neg c1]
  by_cases c2 : WordMove w first.addr last.addr k ∧ first.base * w ≤ i ∧ i < first.addr
  · rw [if_pos c2, ← hm1', if_pos c2.1]
  rw [if_neg c2, off i (by rintro ⟨h4, h5, h6⟩; exact c2 ⟨h4, h5, by omega⟩)]
  by_cases c3 : first.addr ≤ i ∧ i < last.addr
  · rw [if_pos c3, if_neg (by omega), h1 i (by omega) (by omega)]
  · rw [if_neg c3]; exact h2 i (by omega)

end BitLib
