import Verif.SpecOverlap
import Verif.Lemmas.OpPure
import Verif.Lemmas.CopyBackward
/- Pieces written one after the other from a source further left (C106). -/
namespace BitLib.OpCalls
open BitLib
variable {w : Nat}

/-- The pieces end where words end. -/
def Cuts (w : Nat) (d : Int) : Nat → List Nat → Prop
  | _, [] => True
  | k, l :: ls => (∀ j, k ≤ j → j < k + l → before w d j = k ∧ ((d + j) % w).toNat = ((d + k) % w).toNat + (j - k)) ∧ Cuts w d (k + l) ls

theorem cuts_append {d : Int} (l2 : List Nat) : ∀ (l1 : List Nat) (k : Nat), Cuts w d k l1 → Cuts w d (k + l1.sum) l2 → Cuts w d k (l1 ++ l2)
  | [], k, _, h => by simpa using h
  | l :: l1, k, h1, h2 => ⟨h1.1, cuts_append l2 l1 (k + l) h1.2 (by rw [Nat.add_assoc]; simpa using h2)⟩

theorem mod_add {a : Int} {i : Nat} (h : (a % w).toNat + i < w) : ((a + i) % w).toNat = (a % w).toNat + i := by
  have h0 : 0 ≤ a % (w : Int) := Int.emod_nonneg _ (by omega)
  have e : (a + i) % (w : Int) = (a % w + i) % w := by rw [Int.emod_add_emod]
  rw [e, Int.emod_eq_of_lt (by omega) (by omega)]
  omega

/-- A piece that ends with its word or before, and begins with its word or is the first. -/
theorem cut_one {d : Int} {k l : Nat} (h1 : ((d + k) % w).toNat + l ≤ w) (h2 : ((d + k) % w).toNat = 0 ∨ k = 0) (j : Nat) (hj : k ≤ j)
    (hj' : j < k + l) : before w d j = k ∧ ((d + j) % w).toNat = ((d + k) % w).toNat + (j - k) := by
  have e : ((d + j) % w).toNat = ((d + k) % w).toNat + (j - k) := by
    have := mod_add (w := w) (a := d + k) (i := j - k) (by omega)
    rw [← this]
    congr 2
    omega
  refine ⟨?_, e⟩
  unfold before
  rcases h2 with h2 | rfl <;> omega

theorem aligned_add {a : Int} (h : (a % w).toNat = 0) : ((a + w) % w).toNat = 0 := by
  rw [Int.add_emod_right]; exact h

theorem cuts_replicate (hw : 0 < w) {d : Int} : ∀ (q k : Nat), ((d + k) % w).toNat = 0 → Cuts w d k (List.replicate q w)
  | 0, _, _ => trivial
  | q+1, k, h => ⟨cut_one (by omega) (Or.inl h), cuts_replicate hw q (k + w) (by
      have := aligned_add h
      rw [← this]; congr 2; push_cast; omega)⟩

theorem aligned_mul {a : Int} (h : (a % w).toNat = 0) (q : Nat) : ((a + (w * q : Nat)) % w).toNat = 0 := by
  rw [show a + ((w * q : Nat) : Int) = a + (w : Int) * q by push_cast; rfl, Int.add_mul_emod_self_left]; exact h

theorem cuts_pieces (hw : 0 < w) (d : Int) (n : Nat) : Cuts w d 0 (pieces w d n) := by
  have hm : 0 ≤ d % (w : Int) := Int.emod_nonneg _ (by omega)
  have hm' : d % (w : Int) < w := Int.emod_lt_of_pos _ (by omega)
  have hh : ∀ l : Nat, ((d + (0 : Nat)) % w).toNat + l ≤ w → Cuts w d 0 (piece l) := by
    intro l hl
    unfold piece
    split
    · trivial
    · exact ⟨cut_one hl (Or.inr rfl), trivial⟩
  have e0 : (d + ((0 : Nat) : Int)) = d := by simp
  have hhead : (d % (w : Int)).toNat + headLen w d n ≤ w := by unfold headLen; split <;> omega
  unfold pieces
  dsimp only
  by_cases hn : n = headLen w d n
  · rw [← hn, Nat.sub_self, Nat.zero_div, Nat.zero_mod, piece_zero, List.replicate_zero, List.append_nil, List.append_nil]
    exact hh n (by rw [e0]; rw [← hn] at hhead; exact hhead)
  · have hal : ((d + (headLen w d n : Nat)) % w).toNat = 0 := by
      unfold headLen at hn ⊢
      split at hn
      · rename_i h; rw [if_pos h]; simp [h]
      · rename_i h
        rw [if_neg h]
        have : min n (w - (d % (w : Int)).toNat) = w - (d % (w : Int)).toNat := by omega
        rw [this]
        have e : (d + ((w - (d % (w : Int)).toNat : Nat) : Int)) % w = 0 := by
          rw [show (d + ((w - (d % (w : Int)).toNat : Nat) : Int)) = (d - d % w) + w by omega, Int.add_emod_right]
          exact Int.emod_eq_zero_of_dvd (Int.dvd_self_sub_emod)
        rw [e]; rfl
    refine cuts_append _ _ _ (cuts_append _ _ _ (hh _ (by rw [e0]; exact hhead)) ?_) ?_
    · rw [piece_sum]
      exact cuts_replicate hw _ _ (by simpa using hal)
    · rw [List.sum_append, piece_sum, replicate_sum]
      have := aligned_mul hal ((n - headLen w d n) / w)
      rw [show d + ((headLen w d n : Nat) : Int) + ((w * ((n - headLen w d n) / w) : Nat) : Int) =
        d + ((0 + (headLen w d n + w * ((n - headLen w d n) / w)) : Nat) : Int) by rw [Nat.zero_add, Nat.cast_add, Int.add_assoc]] at this
      unfold piece
      split
      · trivial
      · refine ⟨cut_one ?_ (Or.inl this), trivial⟩
        have h2 : (n - headLen w d n) % w < w := Nat.mod_lt _ hw
        rw [this]
        omega

theorem pieces_sum (d : Int) (n : Nat) : (pieces w d n).sum = n := by
  unfold pieces
  dsimp only
  rw [List.sum_append, List.sum_append, piece_sum, piece_sum, replicate_sum]
  have := headLen_le (w := w) d n
  have := Nat.div_add_mod (n - headLen w d n) w
  omega

theorem echo_eq {f : Bool → Bool} {b : Int → Option Bool} {d : Int} {s j : Nat} : echo w f b d s j =
    if s ≤ j ∧ j - s < before w d j then (echo w f b d s (j - s)).map f else (b (d - s + j)).map f := by
  rw [echo]

/-- The memory after the first `k` bits. -/
def upto (w : Nat) (f : Bool → Bool) (b : Int → Option Bool) (d : Int) (s : Nat) (k : Nat) (a : Int) : Option Bool :=
  if d ≤ a ∧ a < d + k then echo w f b d s (a - d).toNat else b a

theorem run_echo {g : BitVec w → BitVec w} {f : Bool → Bool} (hop : ∀ x i, i < w → (g x).getLsbD i = f (x.getLsbD i)) (hw : 0 < w) (d : Int) (s : Nat)
    (b : Int → Option Bool) : ∀ (ls : List Nat) (k : Nat), Cuts w d k ls →
    (∀ i : Nat, i < k + ls.sum → (b (d - s + i)).isSome) → (∀ i : Nat, i < k + ls.sum → (b (d + i)).isSome) →
    (runPieces (τ := Unit) (σ := Unit) (ε := Empty) (fun x s => (.ok (g x), s)) (arg1 w (d - s) d) d ls k () () (upto w f b d s k)).bits =
      upto w f b d s (k + ls.sum)
  | [], k, _, _, _ => by simp [runPieces]
  | l :: ls, k, hc, hs, hd => by
    rw [List.sum_cons, ← Nat.add_assoc] at hs hd ⊢
    rw [← run_echo hop hw d s b ls (k + l) hc.2 hs hd]
    rw [runPieces]
    dsimp only
    rw [Nat.cast_add]
    congr 2
    funext a
    by_cases ha : d + k ≤ a ∧ a < d + k + l
    · rw [if_pos ha]
      unfold upto
      rw [if_pos (by push_cast; omega)]
      obtain ⟨j, rfl⟩ : ∃ j : Nat, a = d + j := ⟨(a - d).toNat, by omega⟩
      obtain ⟨hb, hm⟩ := hc.1 j (by omega) (by omega)
      have hlt : ((d + j) % (w : Int)).toNat < w := by
        have := Int.emod_lt_of_pos (d + j) (show (0 : Int) < w by omega)
        omega
      rw [hop _ _ hlt]
      unfold arg1 seen
      rw [wordOf_get _ _ _ hlt]
      dsimp only
      rw [show (d + (j : Int) - d).toNat = j by omega, echo_eq (j := j), hb, hm]
      rw [show ((d + (k : Int)) % (w : Int)).toNat + (j - k) - ((d + (k : Int)) % (w : Int)).toNat = j - k by omega]
      rw [show (decide (((d + (k : Int)) % (w : Int)).toNat ≤ ((d + (k : Int)) % (w : Int)).toNat + (j - k))) = true by simp]
      rw [show (decide (j - k < max l (w - ((d - s + (k : Int)) % (w : Int)).toNat))) = true by simp; left; omega]
      rw [Bool.true_and, Bool.true_and, show d - (s : Int) + k + ((j - k : Nat) : Int) = d - s + j by omega]
      by_cases hj : s ≤ j ∧ j - s < k
      · rw [if_pos hj, if_pos (by omega), show (d - (s : Int) + j - d).toNat = j - s by omega]
        have hsome : ∀ i : Nat, i < k + l → (echo w f b d s i).isSome := by
          intro i
          induction i using Nat.strongRecOn with
          | ind i ih =>
            intro hi
            rw [echo]
            split
            · rename_i h
              rw [Option.isSome_map]
              exact ih _ (by unfold before at h; omega) (by omega)
            · rw [Option.isSome_map]; exact hs i (by omega)
        have := hsome (j - s) (by omega)
        cases h : echo w f b d s (j - s) with
        | none => rw [h] at this; cases this
        | some v => rfl
      · rw [if_neg hj, if_neg (by omega)]
        have := hs j (by omega)
        cases h : b (d - s + j) with
        | none => rw [h] at this; cases this
        | some v => rfl
    · rw [if_neg ha]
      unfold upto
      by_cases h1 : d ≤ a ∧ a < d + k
      · rw [if_pos h1, if_pos (by push_cast; omega)]
      · rw [if_neg h1, if_neg (by push_cast; omega)]

theorem echo2_eq {f : Bool → Bool → Bool} {b : Int → Option Bool} {p q d : Int} {j : Nat} : echo2 w f b p q d j =
    zipBit f
      (if d ≤ p + j ∧ p + j < d + before w d j then echo2 w f b p q d (p + j - d).toNat else b (p + j))
      (if d ≤ q + j ∧ q + j < d + before w d j then echo2 w f b p q d (q + j - d).toNat else b (q + j)) := by
  rw [echo2]

/-- The memory after the first `k` bits of binary `transform`. -/
def upto2 (w : Nat) (f : Bool → Bool → Bool) (b : Int → Option Bool) (p q d : Int) (k : Nat) (a : Int) : Option Bool :=
  if d ≤ a ∧ a < d + k then echo2 w f b p q d (a - d).toNat else b a

theorem echo2_some {f : Bool → Bool → Bool} {b : Int → Option Bool} {p q d : Int} {n : Nat} (hp : ∀ i : Nat, i < n → (b (p + i)).isSome)
    (hq : ∀ i : Nat, i < n → (b (q + i)).isSome) (i : Nat) : i < n → (echo2 w f b p q d i).isSome := by
  induction i using Nat.strongRecOn with
  | ind i ih =>
    intro hi
    have hz : ∀ x y : Option Bool, x.isSome → y.isSome → (zipBit f x y).isSome := by
      intro x y hx hy
      cases x with
      | none => cases hx
      | some x => cases y with
        | none => cases hy
        | some y => rfl
    rw [echo2]
    apply hz
    · split
      · rename_i h; exact ih _ (by unfold before at h; omega) (by unfold before at h; omega)
      · exact hp i hi
    · split
      · rename_i h; exact ih _ (by unfold before at h; omega) (by unfold before at h; omega)
      · exact hq i hi

/-- A bit of a word the operation is given. -/
theorem seen_bit (hw : 0 < w) {b : Int → Option Bool} {p d : Int} {k l j : Nat} (hj : k ≤ j) (hj' : j < k + l)
    (hm : ((d + j) % w).toNat = ((d + k) % w).toNat + (j - k)) :
    (seen w b (p + k) (d + k) l).getLsbD ((d + j) % w).toNat = (b (p + j)).getD false := by
  have hlt : ((d + j) % (w : Int)).toNat < w := by
    have := Int.emod_lt_of_pos (d + j) (show (0 : Int) < w by omega)
    omega
  unfold seen
  rw [wordOf_get _ _ _ hlt]
  dsimp only
  rw [hm]
  rw [show ((d + (k : Int)) % (w : Int)).toNat + (j - k) - ((d + (k : Int)) % (w : Int)).toNat = j - k by omega]
  rw [show (decide (((d + (k : Int)) % (w : Int)).toNat ≤ ((d + (k : Int)) % (w : Int)).toNat + (j - k))) = true by simp]
  rw [show (decide (j - k < max l (w - ((p + (k : Int)) % (w : Int)).toNat))) = true by simp; left; omega]
  rw [Bool.true_and, Bool.true_and, show p + (k : Int) + ((j - k : Nat) : Int) = p + j by omega]

theorem run_echo2 {g : BitVec w → BitVec w → BitVec w} {f : Bool → Bool → Bool}
    (hop : ∀ x y i, i < w → (g x y).getLsbD i = f (x.getLsbD i) (y.getLsbD i)) (hw : 0 < w) (p q d : Int)
    (b : Int → Option Bool) : ∀ (ls : List Nat) (k : Nat), Cuts w d k ls →
    (∀ i : Nat, i < k + ls.sum → (b (p + i)).isSome) → (∀ i : Nat, i < k + ls.sum → (b (q + i)).isSome) →
    (runPieces (τ := Unit) (σ := Unit) (ε := Empty) (fun x s => (.ok (g x.1 x.2), s)) (arg2 w p q d) d ls k () () (upto2 w f b p q d k)).bits =
      upto2 w f b p q d (k + ls.sum)
  | [], k, _, _, _ => by simp [runPieces]
  | l :: ls, k, hc, hp, hq => by
    rw [List.sum_cons, ← Nat.add_assoc] at hp hq ⊢
    rw [← run_echo2 hop hw p q d b ls (k + l) hc.2 hp hq]
    rw [runPieces]
    dsimp only
    rw [Nat.cast_add]
    congr 2
    funext a
    by_cases ha : d + k ≤ a ∧ a < d + k + l
    · rw [if_pos ha]
      obtain ⟨j, rfl⟩ : ∃ j : Nat, a = d + j := ⟨(a - d).toNat, by omega⟩
      obtain ⟨hb, hm⟩ := hc.1 j (by omega) (by omega)
      have hlt : ((d + j) % (w : Int)).toNat < w := by
        have := Int.emod_lt_of_pos (d + j) (show (0 : Int) < w by omega)
        omega
      rw [hop _ _ _ hlt]
      unfold arg2
      dsimp only
      rw [seen_bit hw (by omega) (by omega) hm, seen_bit hw (by omega) (by omega) hm]
      have hr : ∀ r : Int, (b (r + j)).isSome → upto2 w f b p q d k (r + j) =
          some ((upto2 w f b p q d k (r + j)).getD false) ∧ upto2 w f b p q d k (r + j) =
          if d ≤ r + j ∧ r + j < d + before w d j then echo2 w f b p q d (r + j - d).toNat else b (r + j) := by
        intro r hr
        have : (upto2 w f b p q d k (r + j)).isSome := by
          unfold upto2
          split
          · exact echo2_some hp hq _ (by omega)
          · exact hr
        refine ⟨?_, by rw [hb]; rfl⟩
        cases h : upto2 w f b p q d k (r + j) with
        | none => rw [h] at this; cases this
        | some v => rfl
      obtain ⟨hp1, hp2⟩ := hr p (hp j (by omega))
      obtain ⟨hq1, hq2⟩ := hr q (hq j (by omega))
      have e : upto2 w f b p q d (k + l) (d + j) = echo2 w f b p q d j := by
        unfold upto2
        rw [if_pos (by push_cast; omega), show (d + (j : Int) - d).toNat = j by omega]
      rw [e, echo2_eq, ← hp2, ← hq2]
      conv => rhs; rw [hp1, hq1]
      rfl
    · rw [if_neg ha]
      unfold upto2
      by_cases h1 : d ≤ a ∧ a < d + k
      · rw [if_pos h1, if_pos (by push_cast; omega)]
      · rw [if_neg h1, if_neg (by push_cast; omega)]

end BitLib.OpCalls

namespace BitLib
variable {w : Nat}

/-- The loop of `copy_backward` when it writes one word. -/
theorem wp_copyBackwardLoop_one (S : ShiftSem w) {fuel rem : Nat} {last : BitIter w} {it : Int} {m : Mem w} {Q : Unit → Mem w → Prop} (hl : last.Valid)
    (hf : rem < fuel) (hrw : rem ≤ w) (hm1 : Mapped m (last.addr - rem) last.addr) (hm2 : Mapped m (it * w - rem) (it * w))
    (hQ : ∀ m', Mapd id m m' (last.addr - rem) (it * w - rem) rem → Q () m') : wp (copyBackwardLoop S fuel rem last it) m Q := by
  have hw : 0 < w := Nat.lt_of_le_of_lt (Nat.zero_le _) hl
  have e2 : (it - 1) * (w : Int) = it * w - w := by ring
  obtain ⟨fuel, rfl⟩ : ∃ k, fuel = k + 1 := ⟨fuel - 1, by omega⟩
  unfold copyBackwardLoop
  by_cases h : rem ≥ w
  · obtain rfl : rem = w := by omega
    rw [if_pos h, wp_bind]
    have e1 : (last.sub rem).addr = last.addr - rem := BitIter.sub_addr hw _ _
    refine wp_getWord S (BitIter.sub_valid hw _ _) (by omega) hw ?_ ?_
    · rw [e1]; exact hm1.sub (by omega) (by omega)
    intro x hx
    rw [e1] at hx
    rw [wp_bind]
    refine wp_store_bits hw (it * rem - rem) (by omega) (by omega) (hm2 _ (by omega) (by omega)) ?_
    intro m1 hm1'
    have hmd : Mapd id m m1 (last.addr - rem) (it * rem - rem) rem := by
      have := mapd_of_wrote (m := m) (m' := m1) (p := 0) (n := rem) (a := it - 1) (s := last.addr - rem) (x := x)
        (op := id) (f := id) (fun _ _ _ => rfl) (by omega) hx (by simpa using hm1')
      rw [e2] at this
      simpa using this
    rw [Nat.sub_self]
    refine wp_copyBackwardLoop S _ _ (BitIter.add_valid hw _ _) (by omega) (fun i a b => by omega) (fun i a b => by omega) (by omega) ?_
    intro m2 hm2'
    apply hQ
    have he : bitAt m2 = bitAt m1 := by
      funext a
      rw [hm2' a, if_neg (by simp only [Nat.cast_zero]; omega)]
    intro a
    rw [he]
    exact hmd a
  · rw [if_neg h]
    refine wp_copyBackwardTail S hl (by omega) (Or.inl (by omega)) hm1 ?_ ?_
    · rw [e2]; exact hm2.sub (by omega) (by omega)
    · intro m' hm'
      apply hQ
      rwa [e2, show it * (w : Int) - w + w - rem = it * w - rem by omega] at hm'

/-- The memory after the last `k` bits. -/
def uptoBack (w : Nat) (b : Int → Option Bool) (e : Int) (s : Nat) (k : Nat) (a : Int) : Option Bool :=
  if e - k ≤ a ∧ a < e then echoBack w b e s (e - 1 - a).toNat else b a

theorem echoBack_eq {b : Int → Option Bool} {e : Int} {s j : Nat} : echoBack w b e s j =
    if s ≤ j ∧ j - s < beforeBack w e j then echoBack w b e s (j - s) else b (e + s - 1 - j) := by
  rw [echoBack]

theorem mod_sub {a : Int} {i : Nat} (hw : 0 < w) (h : i ≤ (a % w).toNat) : ((a - i) % w).toNat = (a % w).toNat - i := by
  have h0 : 0 ≤ a % (w : Int) := Int.emod_nonneg _ (by omega)
  have h1 : a % (w : Int) < w := Int.emod_lt_of_pos _ (by omega)
  have e : (a - i) % (w : Int) = (a % w - i) % w := by rw [Int.emod_sub_emod]
  rw [e, Int.emod_eq_of_lt (by omega) (by omega)]
  omega

theorem back_one (hw : 0 < w) {e : Int} {k l : Nat} (h1 : l ≤ ((e - k - 1) % w).toNat + 1) (h2 : ((e - k - 1) % w).toNat = w - 1 ∨ k = 0) (j : Nat)
    (hj : k ≤ j) (hj' : j < k + l) : beforeBack w e j = k := by
  have h3 : (e - k - 1) % (w : Int) < w := Int.emod_lt_of_pos _ (by omega)
  have hm := mod_sub (w := w) (a := e - k - 1) (i := j - k) hw (by omega)
  rw [show e - (k : Int) - 1 - ((j - k : Nat) : Int) = e - 1 - j by omega] at hm
  unfold beforeBack
  rw [hm]
  rcases h2 with h2 | rfl <;> omega

/-- One more word. -/
theorem back_step {m m1 m2 : Mem w} {e : Int} {s k l : Nat} (hm1 : bitAt m1 = uptoBack w (bitAt m) e s k)
    (hm2 : Mapd id m1 m2 (e + s - k - l) (e - k - l) l) (hc : ∀ j, k ≤ j → j < k + l → beforeBack w e j = k) :
    bitAt m2 = uptoBack w (bitAt m) e s (k + l) := by
  funext a
  rw [hm2 a]
  by_cases ha : e - k - l ≤ a ∧ a < e - k - l + l
  · rw [if_pos ha]
    beta_reduce
    rw [Option.map_id, id, hm1]
    unfold uptoBack
    rw [if_pos (by push_cast; omega : e - ((k + l : Nat) : Int) ≤ a ∧ a < e)]
    obtain ⟨j, hj⟩ : ∃ j : Nat, a = e - 1 - j := ⟨(e - 1 - a).toNat, by omega⟩
    subst hj
    rw [show (e - 1 - (e - 1 - (j : Int))).toNat = j by omega, echoBack_eq (j := j), hc j (by omega) (by omega)]
    by_cases hj : s ≤ j ∧ j - s < k
    · rw [if_pos hj, if_pos (by omega)]
      congr 1
      omega
    · rw [if_neg hj, if_neg (by omega)]
      congr 1
      omega
  · rw [if_neg ha, hm1]
    unfold uptoBack
    by_cases hk : e - k ≤ a ∧ a < e
    · rw [if_pos hk, if_pos (by push_cast; omega)]
    · rw [if_neg hk, if_neg (by push_cast; omega)]

theorem uptoBack_some {b : Int → Option Bool} {e : Int} {s n k : Nat} (hk : k ≤ n) (hs : ∀ a, e + s - n ≤ a → a < e + s → (b a).isSome) (a : Int)
    (ha : (b a).isSome) : (uptoBack w b e s k a).isSome := by
  have hsome : ∀ i : Nat, i < n → (echoBack w b e s i).isSome := by
    intro i
    induction i using Nat.strongRecOn with
    | ind i ih =>
      intro hi
      rw [echoBack]
      split
      · rename_i h
        exact ih _ (by unfold beforeBack at h; omega) (by omega)
      · exact hs _ (by omega) (by omega)
  unfold uptoBack
  split
  · exact hsome _ (by omega)
  · exact ha

theorem wp_copyBackwardLoop_echo (S : ShiftSem w) {m : Mem w} {e : Int} {s n : Nat} (hs : Mapped m (e + s - n) (e + s)) (hd : Mapped m (e - n) e) :
    ∀ (fuel rem k : Nat) {last : BitIter w} {it : Int} {m1 : Mem w} {Q : Unit → Mem w → Prop}, last.Valid → rem < fuel → k + rem = n →
    last.addr = e + s - k → it * w = e - k → bitAt m1 = uptoBack w (bitAt m) e s k →
    (∀ m', bitAt m' = uptoBack w (bitAt m) e s n → Q () m') → wp (copyBackwardLoop S fuel rem last it) m1 Q := by
  intro fuel
  induction fuel with
  | zero => intro rem k last it m1 Q _ h; omega
  | succ fuel ih =>
    intro rem k last it m1 Q hl hf hn hla hit hm1 hQ
    have hw : 0 < w := Nat.lt_of_le_of_lt (Nat.zero_le _) hl
    have e2 : (it - 1) * (w : Int) = it * w - w := by ring
    have hsm : Mapped m1 (e + s - n) (e + s) := fun i a b => by rw [hm1]; exact uptoBack_some (by omega) hs i (hs i a b)
    have hdm : Mapped m1 (e - n) e := fun i a b => by rw [hm1]; exact uptoBack_some (by omega) hs i (hd i a b)
    have hal : ((e - k - 1) % (w : Int)).toNat = w - 1 := by
      rw [← hit, show it * (w : Int) - 1 = ((w : Int) - 1) + w * (it - 1) by ring, Int.add_mul_emod_self_left, Int.emod_eq_of_lt (by omega) (by omega)]
      omega
    by_cases h : rem < w
    · refine wp_copyBackwardLoop_one S hl hf (by omega) (hsm.sub (by omega) (by omega)) (hdm.sub (by omega) (by omega)) ?_
      intro m' hm'
      apply hQ
      rw [hla, hit] at hm'
      rw [← hn]
      exact back_step hm1 hm' (back_one hw (by omega) (Or.inl hal))
    · unfold copyBackwardLoop
      rw [if_pos (by omega), wp_bind]
      have e1 : (last.sub w).addr = last.addr - w := BitIter.sub_addr hw _ _
      refine wp_getWord S (BitIter.sub_valid hw _ _) (by omega) hw ?_ ?_
      · rw [e1]; exact hsm.sub (by omega) (by omega)
      intro x hx
      rw [e1] at hx
      rw [wp_bind]
      refine wp_store_bits hw (it * w - w) (by omega) (by omega) (hdm _ (by omega) (by omega)) ?_
      intro m2 hm2'
      have hmd : Mapd id m1 m2 (last.addr - w) (it * w - w) w := by
        have := mapd_of_wrote (m := m1) (m' := m2) (p := 0) (n := w) (a := it - 1) (s := last.addr - w) (x := x)
          (op := id) (f := id) (fun _ _ _ => rfl) (by omega) hx (by simpa using hm2')
        rw [e2] at this
        simpa using this
      rw [hla, hit] at hmd
      have e3 : (last.add (-(w : Int))).addr = last.addr - w := by rw [BitIter.add_addr hw]; omega
      refine ih (rem - w) (k + w) (BitIter.add_valid hw _ _) (by omega) (by omega) (by rw [e3]; omega) (by rw [e2]; omega)
        (back_step hm1 hmd (back_one hw (by omega) (Or.inl hal))) hQ

theorem wp_copyBackward_echo (S : ShiftSem w) {first last d : BitIter w} {m : Mem w} {s : Nat} {Q : BitIter w → Mem w → Prop}
    (hf : first.Valid) (hl : last.Valid) (hd : d.Valid) (hle : first.addr ≤ last.addr) (hs : last.addr = d.addr + s)
    (hstd : ¬ (last.pos = d.pos ∧ w + d.pos < last.addr - first.addr))
    (hm1 : Mapped m first.addr last.addr) (hm2 : Mapped m (d.addr - (last.addr - first.addr)) d.addr)
    (hQ : ∀ m' (r : BitIter w), r.Valid → r.addr = d.addr - (last.addr - first.addr) →
      bitAt m' = uptoBack w (bitAt m) d.addr s (last.addr - first.addr).toNat → Q r m') :
    wp (copyBackward S first last d) m Q := by
  have hw : 0 < w := Nat.lt_of_le_of_lt (Nat.zero_le _) hf
  have hu0 : bitAt m = uptoBack w (bitAt m) d.addr s 0 := by
    funext a; unfold uptoBack; rw [if_neg (by simp only [Nat.cast_zero]; omega)]
  rw [copyBackward_eq_body, wp_bind, wp_assertViable]
  refine ⟨hle, ?_⟩
  by_cases hb : first.beq last
  · rw [if_pos hb, wp_pure]
    rw [BitIter.beq_iff hf hl] at hb
    refine hQ m d hd (by omega) ?_
    rw [hb, Int.sub_self]
    exact hu0
  · rw [if_neg hb, wp_bind, wp_distance]
    refine ⟨hle, ?_⟩
    rw [BitIter.beq_iff hf hl] at hb
    obtain ⟨n, hn⟩ : ∃ n : Nat, last.addr - first.addr = n := ⟨(last.addr - first.addr).toNat, by omega⟩
    rw [hn] at hm2 hQ hstd
    rw [hn, Int.toNat_natCast, wp_bind]
    rw [Int.toNat_natCast] at hQ
    have hm1' : Mapped m (last.addr - n) last.addr := hm1.sub (by omega) (by omega)
    refine wp_copyBackwardHead S hl hd (by omega) hm1' hm2 ?_
    intro m1 k last' hk hl' hla hit hmd
    dsimp only
    rw [wp_bind]
    have hdp : d.pos < w := hd
    have hlp : last.pos < w := hl
    have hda : d.addr = d.base * w + d.pos := rfl
    have hla' : last.addr = last.base * w + last.pos := rfl
    have hla2 : last'.addr = last'.base * w + last'.pos := rfl
    have hres : ∀ m', bitAt m' = uptoBack w (bitAt m) d.addr s n → wp (pure (d.sub n)) m' Q := by
      intro m' hm'
      rw [wp_pure]
      exact hQ m' _ (BitIter.sub_valid hw _ _) (BitIter.sub_addr hw _ _) hm'
    have hhead : bitAt m1 = uptoBack w (bitAt m) d.addr s k := by
      by_cases hk0 : k = 0
      · subst hk0
        rw [← hu0]
        funext a
        rw [hmd a, if_neg (by simp only [Nat.cast_zero]; omega)]
      · have := back_step (k := 0) (l := k) (m2 := m1) (s := s) (e := d.addr) hu0
          (by rw [hs] at hmd; simpa using hmd) (back_one hw (by
            rw [show d.addr - ((0 : Nat) : Int) - 1 = ((d.pos : Int) - 1) + w * d.base by rw [hda, Int.mul_comm]; simp only [Nat.cast_zero]; omega,
              Int.add_mul_emod_self_left, Int.emod_eq_of_lt (by omega) (by omega)]
            omega) (Or.inr rfl))
        rwa [Nat.zero_add] at this
    unfold copyBackwardBody
    by_cases hrem : n - k > 0
    · rw [if_pos hrem]
      by_cases h1 : last'.pos = 0 ∧ n - k > w
      · exfalso
        apply hstd
        have hkd : k = d.pos := by omega
        have e3 : last.base * (w : Int) + last.pos = last'.base * w + d.pos := by omega
        have := congrArg (· % (w : Int)) e3
        simp only [emod_of_word _ _ hlp, emod_of_word _ _ hdp] at this
        omega
      · rw [if_neg h1]
        refine wp_copyBackwardLoop_echo S (m := m) (e := d.addr) (s := s) (n := n) (hm1'.sub (by omega) (by omega)) hm2 _ _ k hl' (by omega) (by omega)
          (by omega) (hit (by omega)) hhead hres
    · rw [if_neg hrem, wp_pure]
      rw [show k = n by omega] at hhead
      exact hres m1 hhead

end BitLib
