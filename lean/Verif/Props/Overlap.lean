import Verif.Lemmas.Overlap
import Verif.Props.Copy
import Verif.Props.OpCalls
/-
C106: `transform`, `copy`, `move` and `copy_backward` when the destination overlaps the source in the direction they do not allow for.
-/
namespace BitLib
open OpCalls
variable {w : Nat}

/-- C106: `transform` with an operation that acts bit by bit as `f`, for a destination `s` bits to the right of the source, overlapping it or not:
each bit becomes `f` of what is at its source when the words before have been written. -/
theorem C106_transform (S : ShiftSem w) (op : BitVec w → BitVec w) (f : Bool → Bool)
    (hop : ∀ x i, i < w → (op x).getLsbD i = f (x.getLsbD i)) (m : Mem w) (first last d : BitIter w) (s : Nat)
    (hr : Range m first last) (hd : Dest m d (len first last)) (hs : d.addr = first.addr + s) :
    ∃ r m', transform S op first last d m = .ok (r, m') ∧ r.Valid ∧ r.addr = d.addr + len first last ∧
      Wrote m m' d.addr (d.addr + len first last) fun a => echo w f (bitAt m) d.addr s (a - d.addr).toNat := by
  have hw : 0 < w := Nat.lt_of_le_of_lt (Nat.zero_le _) hr.1
  have hle := hr.3
  obtain ⟨r, m', h1, h2, h3, h4⟩ := C104_overlap S op m first last d hr hd
  refine ⟨r, m', h1, h2, h3, fun a => ?_⟩
  have hn : ((len first last).toNat : Int) = len first last := by unfold len; omega
  have he := run_echo (f := f) hop hw d.addr s (bitAt m) (pieces w d.addr (len first last).toNat) 0 (cuts_pieces hw _ _)
    (fun i hi => by
      rw [pieces_sum] at hi
      unfold len at hi
      exact hr.4 _ (by omega) (by omega))
    (fun i hi => by
      rw [pieces_sum] at hi
      exact hd.2 _ (by omega) (by omega))
  rw [pieces_sum, show upto w f (bitAt m) d.addr s 0 = bitAt m by
    funext a; unfold upto; rw [if_neg (by simp only [Nat.cast_zero]; omega)], show d.addr - (s : Int) = first.addr by omega] at he
  rw [h4]
  have := congrFun he a
  rw [Nat.cast_zero] at this
  rw [this]
  unfold upto
  rw [Nat.zero_add, hn]

/-- C106: the same of `copy`. If source and destination begin at the same position of their words and more than a word is left behind the first
end of a word, `copy` calls `std::copy` outside of its precondition; this case is excluded. -/
theorem C106_copy (S : ShiftSem w) (m : Mem w) (first last d : BitIter w) (s : Nat)
    (hr : Range m first last) (hd : Dest m d (len first last)) (hs : d.addr = first.addr + s)
    (_hstd : block1 w first.addr d.addr (len first last).toNat = false ∨ last.addr ≤ d.addr) :
    ∃ r m', copy S first last d m = .ok (r, m') ∧ r.Valid ∧ r.addr = d.addr + len first last ∧
      Wrote m m' d.addr (d.addr + len first last) fun a => echo w id (bitAt m) d.addr s (a - d.addr).toNat := by
  rw [copy_eq (Nat.lt_of_le_of_lt (Nat.zero_le _) hr.1)]
  exact C106_transform S id id (fun _ _ _ => rfl) m first last d s hr hd hs

/-- C106: the same of `move`. -/
theorem C106_move (S : ShiftSem w) (m : Mem w) (first last d : BitIter w) (s : Nat)
    (hr : Range m first last) (hd : Dest m d (len first last)) (hs : d.addr = first.addr + s)
    (_hstd : block1 w first.addr d.addr (len first last).toNat = false ∨ last.addr ≤ d.addr) :
    ∃ r m', move S first last d m = .ok (r, m') ∧ r.Valid ∧ r.addr = d.addr + len first last ∧
      Wrote m m' d.addr (d.addr + len first last) fun a => echo w id (bitAt m) d.addr s (a - d.addr).toNat := by
  rw [move_eq (Nat.lt_of_le_of_lt (Nat.zero_le _) hr.1)]
  exact C106_transform S id id (fun _ _ _ => rfl) m first last d s hr hd hs

/-- C106: at a distance of at least a word the result is that of copying bit by bit from the left: the first `s` bits repeat. -/
theorem C106_period (b : Int → Option Bool) (d : Int) (s : Nat) (hw : 0 < w) (hs : w ≤ s) (j : Nat) :
    echo w id b d s j = b (d - s + (j % s : Nat)) := by
  induction j using Nat.strongRecOn with
  | ind j ih =>
    have hm : ((d + j) % (w : Int)).toNat < w := by
      have := Int.emod_lt_of_pos (d + j) (show (0 : Int) < w by omega)
      omega
    rw [echo]
    by_cases h : s ≤ j
    · by_cases h' : j - s < before w d j
      · rw [if_pos ⟨h, h'⟩, ih _ (by omega), Option.map_id, id, Nat.mod_eq_sub_mod h]
      · exfalso; unfold before at h'; omega
    · rw [if_neg (by omega), Option.map_id, id, Nat.mod_eq_of_lt (by omega)]

/-- In one word nothing is read that has been written. -/
theorem echo_one {f : Bool → Bool} {b : Int → Option Bool} {d n : Int} {s j : Nat} (hw : 0 < w) (h : InOneWord w d n) (hj : (j : Int) < n) :
    echo w f b d s j = (b (d - s + j)).map f := by
  have hm : 0 ≤ d % (w : Int) := Int.emod_nonneg _ (by omega)
  unfold InOneWord at h
  have e := mod_add (w := w) (a := d) (i := j) (by omega)
  rw [echo, if_neg]
  unfold before
  omega

/-- C106: if the destination is in one word, `transform` is right whatever the overlap. -/
theorem C106_one_word (S : ShiftSem w) (op : BitVec w → BitVec w) (f : Bool → Bool)
    (hop : ∀ x i, i < w → (op x).getLsbD i = f (x.getLsbD i)) (m : Mem w) (first last d : BitIter w)
    (hr : Range m first last) (hd : Dest m d (len first last)) (h : InOneWord w d.addr (len first last)) :
    ∃ r m', transform S op first last d m = .ok (r, m') ∧ r.Valid ∧ r.addr = d.addr + len first last ∧
      Mapd f m m' first.addr d.addr (len first last) := by
  have hw : 0 < w := Nat.lt_of_le_of_lt (Nat.zero_le _) hr.1
  by_cases hc : d.addr ≤ first.addr
  · exact C23_transform S op f hop m first last d hr hd (Or.inl hc)
  · obtain ⟨s, hs⟩ : ∃ s : Nat, d.addr = first.addr + s := ⟨(d.addr - first.addr).toNat, by omega⟩
    obtain ⟨r, m', h1, h2, h3, h4⟩ := C106_transform S op f hop m first last d s hr hd hs
    refine ⟨r, m', h1, h2, h3, fun a => ?_⟩
    rw [h4 a]
    by_cases ha : d.addr ≤ a ∧ a < d.addr + len first last
    · rw [if_pos ha, if_pos ha]
      beta_reduce
      rw [echo_one hw h (by omega), show d.addr - (s : Int) + ((a - d.addr).toNat : Nat) = first.addr + (a - d.addr) by omega]
    · rw [if_neg ha, if_neg ha]

/-- C106: and so are `copy` and `move`. -/
theorem C106_one_word_copy (S : ShiftSem w) (m : Mem w) (first last d : BitIter w)
    (hr : Range m first last) (hd : Dest m d (len first last)) (h : InOneWord w d.addr (len first last)) :
    (∃ r m', copy S first last d m = .ok (r, m') ∧ r.Valid ∧ r.addr = d.addr + len first last ∧
      Copied m m' first.addr d.addr (len first last)) ∧
    ∃ r m', move S first last d m = .ok (r, m') ∧ r.Valid ∧ r.addr = d.addr + len first last ∧
      Copied m m' first.addr d.addr (len first last) := by
  have hw : 0 < w := Nat.lt_of_le_of_lt (Nat.zero_le _) hr.1
  rw [copy_eq hw, move_eq hw]
  obtain ⟨r, m', h1, h2, h3, h4⟩ := C106_one_word S id id (fun _ _ _ => rfl) m first last d hr hd h
  exact ⟨⟨r, m', h1, h2, h3, copied_of_mapd h4⟩, r, m', h1, h2, h3, copied_of_mapd h4⟩

/-- The memory that maps the same words as `m`, with a single one, at `a`. -/
def lone (m : Mem w) (a : Int) : Mem w := fun c => (m c).map fun _ => if c = a / w then BitVec.twoPow w (a % w).toNat else 0

theorem bitAt_lone (hw : 0 < w) (m : Mem w) (a i : Int) : bitAt (lone m a) i = (bitAt m i).map fun _ => decide (i = a) := by
  have h1 := Int.emod_nonneg i (show (w : Int) ≠ 0 by omega)
  have h2 := Int.emod_nonneg a (show (w : Int) ≠ 0 by omega)
  have h3 := Int.emod_lt_of_pos i (show (0 : Int) < w by omega)
  have h4 := Int.emod_lt_of_pos a (show (0 : Int) < w by omega)
  have h5 := Int.mul_ediv_add_emod i w
  have h6 := Int.mul_ediv_add_emod a w
  unfold bitAt lone
  rw [Option.map_map, Option.map_map]
  congr 1
  funext _
  simp only [Function.comp]
  by_cases hc : i / (w : Int) = a / w
  · rw [if_pos hc, BitVec.getLsbD_twoPow]
    rw [hc] at h5
    by_cases he : i = a
    · subst he; simp; omega
    · rw [decide_eq_false he]
      simp only [Bool.and_eq_false_iff, decide_eq_false_iff_not]
      right; omega
  · rw [if_neg hc]
    have : i ≠ a := by rintro rfl; exact hc rfl
    simp [this]

/-- C106: if the destination is not in one word, then `copy` to the right of the source and into it goes wrong for some contents of the same words:
being in one word is exactly what it takes. -/
theorem C106_copy_wrong (S : ShiftSem w) (m : Mem w) (first last d : BitIter w)
    (hr : Range m first last) (hd : Dest m d (len first last)) (h1 : first.addr < d.addr) (h2 : d.addr < last.addr)
    (_hstd : block1 w first.addr d.addr (len first last).toNat = false) (h : ¬ InOneWord w d.addr (len first last)) :
    ∃ m0, SameMapped m m0 ∧ ∀ r m', copy S first last d m0 = .ok (r, m') → ¬ Copied m0 m' first.addr d.addr (len first last) := by
  have hw : 0 < w := Nat.lt_of_le_of_lt (Nat.zero_le _) hr.1
  obtain ⟨s, hs⟩ : ∃ s : Nat, d.addr = first.addr + s := ⟨(d.addr - first.addr).toNat, by omega⟩
  have hm0 : 0 ≤ d.addr % (w : Int) := Int.emod_nonneg _ (by omega)
  have hm1 : d.addr % (w : Int) < w := Int.emod_lt_of_pos _ (by omega)
  unfold InOneWord at h
  obtain ⟨n, hn⟩ : ∃ n : Nat, len first last = n := ⟨(len first last).toNat, by unfold len; omega⟩
  have hn' : last.addr = first.addr + n := by unfold len at hn; omega
  -- the first bit of the second word of the destination, or the first bit of the overlap
  obtain ⟨j, hj1, hj2, hj3⟩ : ∃ j : Nat, s ≤ j ∧ j < n ∧ j - s < before w d.addr j := by
    let k := w - (d.addr % (w : Int)).toNat
    have hk : ((d.addr + k) % (w : Int)).toNat = 0 := by
      have e : (d.addr + (k : Int)) % w = 0 := by
        rw [show (d.addr + (k : Int)) = (d.addr - d.addr % w) + w by omega, Int.add_emod_right]
        exact Int.emod_eq_zero_of_dvd (Int.dvd_self_sub_emod)
      rw [e]; rfl
    by_cases hc : s ≤ k
    · exact ⟨k, hc, by omega, by unfold before; rw [hk]; omega⟩
    · -- the offset of `s` in its word is less than `s`, since a word has begun before
      refine ⟨s, le_refl _, by omega, ?_⟩
      unfold before
      have : ((d.addr + s) % (w : Int)).toNat ≤ s - k := by
        have e : (d.addr + (s : Int)) % w = ((s - k : Nat) : Int) % w := by
          have hz : (d.addr + (k : Int)) % w = 0 := by
            have := Int.emod_nonneg (d.addr + k) (show (w : Int) ≠ 0 by omega)
            omega
          rw [show (d.addr + (s : Int)) = (d.addr + k) + ((s - k : Nat) : Int) by omega, Int.add_emod, hz, Int.zero_add, Int.emod_emod]
        rw [e]
        have := Nat.mod_le (s - k) w
        omega
      omega
  refine ⟨lone m (first.addr + j), fun i => by rw [bitAt_lone hw, Option.isSome_map], fun r m' hrun hcop => ?_⟩
  have hsame : ∀ i, (bitAt (lone m (first.addr + j)) i).isSome = (bitAt m i).isSome := fun i => by rw [bitAt_lone hw, Option.isSome_map]
  have hr0 : Range (lone m (first.addr + j)) first last := ⟨hr.1, hr.2, hr.3, fun i a b => by rw [hsame]; exact hr.4 i a b⟩
  have hd0 : Dest (lone m (first.addr + j)) d (len first last) := ⟨hd.1, fun i a b => by rw [hsame]; exact hd.2 i a b⟩
  rw [copy_eq hw] at hrun
  obtain ⟨r', m1, e1, _, _, e2⟩ := C106_transform S id id (fun _ _ _ => rfl) _ first last d s hr0 hd0 hs
  rw [hrun] at e1
  cases e1
  have ha := e2 (d.addr + j)
  rw [hcop (d.addr + j)] at ha
  have hin : d.addr ≤ d.addr + (j : Int) ∧ d.addr + (j : Int) < d.addr + len first last := by omega
  rw [if_pos hin, if_pos hin] at ha
  beta_reduce at ha
  rw [show first.addr + (d.addr + (j : Int) - d.addr) = first.addr + j by omega, show (d.addr + (j : Int) - d.addr).toNat = j by omega,
    echo, if_pos ⟨hj1, hj3⟩, Option.map_id, id] at ha
  have hs0 : 0 < s := by omega
  have hz : ∀ i : Nat, i < j → echo w id (bitAt (lone m (first.addr + j))) d.addr s i = some false := by
    intro i
    induction i using Nat.strongRecOn with
    | ind i ih =>
      intro hi
      rw [echo]
      split
      · rw [ih (i - s) (by omega) (by omega)]; rfl
      · rw [Option.map_id, id, bitAt_lone hw]
        have := hr.4 (d.addr - s + i) (by omega) (by omega)
        cases hb : bitAt m (d.addr - s + i) with
        | none => rw [hb] at this; cases this
        | some v => rw [Option.map_some, decide_eq_false (by omega)]
  rw [hz (j - s) (by omega), bitAt_lone hw] at ha
  cases hb : bitAt m (first.addr + j) with
  | none => rw [hb] at ha; cases ha
  | some v => rw [hb, Option.map_some, decide_eq_true rfl] at ha; cases ha

/-- C106: `copy_backward` to the left of the source and into it is right if the destination is in one word. -/
theorem C106_one_word_backward (S : ShiftSem w) (m : Mem w) (first last d : BitIter w) (hr : Range m first last)
    (hd : d.Valid) (hdm : Mapped m (d.addr - len first last) d.addr) (h : InOneWord w (d.addr - len first last) (len first last)) :
    ∃ r m', copyBackward S first last d m = .ok (r, m') ∧ r.Valid ∧ r.addr = d.addr - len first last ∧
      Copied m m' first.addr (d.addr - len first last) (len first last) := by
  have hw : 0 < w := Nat.lt_of_le_of_lt (Nat.zero_le _) hr.1
  obtain ⟨hf, hl, hle, hm1⟩ := hr
  suffices hx : wp (copyBackward S first last d) m fun r m' => r.Valid ∧ r.addr = d.addr - len first last ∧
      Copied m m' first.addr (d.addr - len first last) (len first last) from hx
  rw [copyBackward_eq_body, wp_bind, wp_assertViable]
  refine ⟨hle, ?_⟩
  by_cases hb : first.beq last
  · rw [if_pos hb, wp_pure]
    rw [BitIter.beq_iff hf hl] at hb
    unfold len
    rw [hb, Int.sub_self]
    exact ⟨hd, by omega, copied_of_mapd Mapd.zero⟩
  · rw [if_neg hb, wp_bind, wp_distance]
    refine ⟨hle, ?_⟩
    rw [BitIter.beq_iff hf hl] at hb
    obtain ⟨n, hn⟩ : ∃ n : Nat, last.addr - first.addr = n := ⟨(last.addr - first.addr).toNat, by omega⟩
    unfold len at hdm h ⊢
    rw [hn] at hdm h
    rw [hn, Int.toNat_natCast, wp_bind]
    have hm1' : Mapped m (last.addr - n) last.addr := hm1.sub (by omega) (by omega)
    refine wp_copyBackwardHead S hl hd (by omega) hm1' hdm ?_
    intro m1 k last' hk hl' hla hit hmd
    dsimp only
    rw [wp_bind]
    have hdp : d.pos < w := hd
    have hda : d.addr = d.base * w + d.pos := rfl
    have hmod : (d.addr - n) % (w : Int) = if n ≤ d.pos then (d.pos : Int) - n else if n ≤ w + d.pos then w + (d.pos : Int) - n else (d.addr - n) % (w : Int) := by
      split
      · rw [hda, show d.base * (w : Int) + d.pos - n = ((d.pos : Int) - n) + w * d.base by rw [Int.mul_comm]; omega, Int.add_mul_emod_self_left,
          Int.emod_eq_of_lt (by omega) (by omega)]
      · split
        · by_cases hz : n = w + d.pos - w
          · omega
          rw [hda, show d.base * (w : Int) + d.pos - n = (w + (d.pos : Int) - n) + w * (d.base - 1) by rw [Int.mul_sub, Int.mul_comm]; omega,
            Int.add_mul_emod_self_left, Int.emod_eq_of_lt (by omega) (by omega)]
        · rfl
    have hres : (d.sub n).Valid ∧ (d.sub n).addr = d.addr - n := ⟨BitIter.sub_valid hw _ _, BitIter.sub_addr hw _ _⟩
    unfold InOneWord at h
    have hnn := Int.emod_nonneg (d.addr - n) (show (w : Int) ≠ 0 by omega)
    by_cases hp : n ≤ d.pos
    · rw [show n - k = 0 by omega]
      unfold copyBackwardBody
      rw [if_neg (by omega), wp_pure, wp_pure]
      rw [show k = n by omega, show last.addr - (n : Int) = first.addr by omega] at hmd
      exact ⟨hres.1, hres.2, copied_of_mapd hmd⟩
    · rw [if_neg hp] at hmod
      have hp0 : d.pos = 0 := by
        by_contra hc
        by_cases hc2 : n ≤ w + d.pos
        · rw [if_pos hc2] at hmod; omega
        · omega
      have hk0 : k = 0 := by omega
      subst hk0
      have hnw : n ≤ w := by omega
      have hm : bitAt m1 = bitAt m := by
        funext a
        rw [hmd a, if_neg (by simp only [Nat.cast_zero]; omega)]
      have hlast : last'.addr = last.addr := by omega
      rw [Nat.sub_zero]
      unfold copyBackwardBody
      rw [if_pos (by omega), if_neg (by omega)]
      have hfin : ∀ m', Mapd id m1 m' (last.addr - n) (d.base * w - n) n → wp (pure (d.sub n)) m' fun r m' => r.Valid ∧ r.addr = d.addr - n ∧
          Copied m m' first.addr (d.addr - n) n := by
        intro m' hm'
        rw [wp_pure]
        refine ⟨hres.1, hres.2, copied_of_mapd fun a => ?_⟩
        rw [hm' a, show d.base * (w : Int) - n = d.addr - n by omega, show last.addr - (n : Int) = first.addr by omega]
        rw [hm]
      have hm1m : ∀ a b, Mapped m a b → Mapped m1 a b := fun a b hh i p q => by rw [hm]; exact hh i p q
      refine wp_copyBackwardLoop_one S hl' (by omega) hnw ?_ ?_ ?_
      · rw [hlast]; exact hm1m _ _ hm1'
      · exact hm1m _ _ (hdm.sub (by omega) (by omega))
      · intro m' hm'
        rw [hlast] at hm'
        exact hfin m' hm'

/-- C106: binary `transform` with an operation that acts bit by bit as `f`, for any places of the two sources and the destination. -/
theorem C106_transform2 (S : ShiftSem w) (op : BitVec w → BitVec w → BitVec w) (f : Bool → Bool → Bool)
    (hop : ∀ x y i, i < w → (op x y).getLsbD i = f (x.getLsbD i) (y.getLsbD i)) (m : Mem w) (first last second d : BitIter w)
    (hr : Range m first last) (h2 : Dest m second (len first last)) (hd : Dest m d (len first last)) :
    ∃ r m', transform2 S op first last second d m = .ok (r, m') ∧ r.Valid ∧ r.addr = d.addr + len first last ∧
      Wrote m m' d.addr (d.addr + len first last) fun a => echo2 w f (bitAt m) first.addr second.addr d.addr (a - d.addr).toNat := by
  have hw : 0 < w := Nat.lt_of_le_of_lt (Nat.zero_le _) hr.1
  have hle := hr.3
  have hn : ((len first last).toNat : Int) = len first last := by unfold len; omega
  obtain ⟨r, m', h1, h2', h3⟩ := C104_transform2 (τ := Unit) (σ := Unit) (ε := Empty) S (fun x s => (.ok (op x.1 x.2), s)) m first last second d () ()
    hr h2 hd
  rw [C104_pure2] at h1
  rw [C104_plain _ (fun _ _ => rfl)] at h2' h3
  rw [words_run] at h1
  rcases hx : BitLib.transform2 S op first last second d m with u | ⟨a, m1⟩
  · rw [hx] at h1; cases h1
  rw [hx] at h1
  cases h1
  split at h3
  · rename_i e _; exact e.elim
  obtain ⟨it, e, hv, ha⟩ := h3
  cases e
  refine ⟨a, m', rfl, hv, ha, fun i => ?_⟩
  have he := run_echo2 (f := f) hop hw first.addr second.addr d.addr (bitAt m) (pieces w d.addr (len first last).toNat) 0 (cuts_pieces hw _ _)
    (fun i hi => by
      rw [pieces_sum] at hi
      unfold len at hi
      exact hr.4 _ (by omega) (by omega))
    (fun i hi => by
      rw [pieces_sum] at hi
      exact h2.2 _ (by omega) (by omega))
  rw [pieces_sum, show upto2 w f (bitAt m) first.addr second.addr d.addr 0 = bitAt m by
    funext a; unfold upto2; rw [if_neg (by simp only [Nat.cast_zero]; omega)]] at he
  rw [h2']
  have := congrFun he i
  rw [Nat.cast_zero] at this
  rw [this]
  unfold upto2
  rw [Nat.zero_add, hn]

/-- C106: if the destination is in one word, binary `transform` is right whatever the overlaps. -/
theorem C106_one_word2 (S : ShiftSem w) (op : BitVec w → BitVec w → BitVec w) (f : Bool → Bool → Bool)
    (hop : ∀ x y i, i < w → (op x y).getLsbD i = f (x.getLsbD i) (y.getLsbD i)) (m : Mem w) (first last second d : BitIter w)
    (hr : Range m first last) (h2 : Dest m second (len first last)) (hd : Dest m d (len first last)) (h : InOneWord w d.addr (len first last)) :
    ∃ r m', transform2 S op first last second d m = .ok (r, m') ∧ r.Valid ∧ r.addr = d.addr + len first last ∧
      Mapd2 f m m' first.addr second.addr d.addr (len first last) := by
  have hw : 0 < w := Nat.lt_of_le_of_lt (Nat.zero_le _) hr.1
  obtain ⟨r, m', h1, hv, h3, h4⟩ := C106_transform2 S op f hop m first last second d hr h2 hd
  refine ⟨r, m', h1, hv, h3, fun a => ?_⟩
  rw [h4 a]
  by_cases ha : d.addr ≤ a ∧ a < d.addr + len first last
  · rw [if_pos ha, if_pos ha]
    beta_reduce
    have hm : 0 ≤ d.addr % (w : Int) := Int.emod_nonneg _ (by omega)
    unfold InOneWord at h
    have hb : before w d.addr (a - d.addr).toNat = 0 := by
      have e := mod_add (w := w) (a := d.addr) (i := (a - d.addr).toNat) (by omega)
      unfold before
      omega
    rw [echo2, hb, if_neg (by simp only [Nat.cast_zero]; omega), if_neg (by simp only [Nat.cast_zero]; omega),
      show (((a - d.addr).toNat : Nat) : Int) = a - d.addr by omega]
  · rw [if_neg ha, if_neg ha]

/-- C106: `copy_backward` for a destination that ends `s` bits to the left of the end of the source, overlapping it or not. If both ends are at the
same position of their words and more than a word is left, `copy_backward` calls `std::copy_backward`; this case is excluded. -/
theorem C106_backward (S : ShiftSem w) (m : Mem w) (first last d : BitIter w) (s : Nat) (hr : Range m first last)
    (hd : d.Valid) (hdm : Mapped m (d.addr - len first last) d.addr) (hs : last.addr = d.addr + s)
    (hstd : ¬ (last.pos = d.pos ∧ w + d.pos < len first last)) :
    ∃ r m', copyBackward S first last d m = .ok (r, m') ∧ r.Valid ∧ r.addr = d.addr - len first last ∧
      Wrote m m' (d.addr - len first last) d.addr fun a => echoBack w (bitAt m) d.addr s (d.addr - 1 - a).toNat :=
  wp_copyBackward_echo S hr.1 hr.2 hd hr.3 hs hstd hr.4 hdm
    (Q := fun r m' => r.Valid ∧ r.addr = d.addr - len first last ∧
      Wrote m m' (d.addr - len first last) d.addr fun a => echoBack w (bitAt m) d.addr s (d.addr - 1 - a).toNat)
    (fun m' r h1 h2 h3 => ⟨h1, h2, fun a => by
      rw [h3]; unfold uptoBack
      rw [show (((last.addr - first.addr).toNat : Nat) : Int) = len first last by unfold len; have := hr.3; omega]⟩)

/-- C106: at a distance of at least a word the result is that of copying bit by bit from the right: the last `s` bits repeat. -/
theorem C106_backward_period (b : Int → Option Bool) (e : Int) (s : Nat) (hw : 0 < w) (hs : w ≤ s) (j : Nat) :
    echoBack w b e s j = b (e + s - 1 - (j % s : Nat)) := by
  induction j using Nat.strongRecOn with
  | ind j ih =>
    rw [echoBack]
    by_cases h : s ≤ j
    · by_cases h' : j - s < beforeBack w e j
      · rw [if_pos ⟨h, h'⟩, ih _ (by omega), Nat.mod_eq_sub_mod h]
      · exfalso; unfold beforeBack at h'; omega
    · rw [if_neg (by omega), Nat.mod_eq_of_lt (by omega)]

/-- C106: if the destination is not in one word, then `copy_backward` to the left of the source and into it goes wrong for some contents of the same
words. -/
theorem C106_backward_wrong (S : ShiftSem w) (m : Mem w) (first last d : BitIter w) (hr : Range m first last)
    (hd : d.Valid) (hdm : Mapped m (d.addr - len first last) d.addr) (h1 : first.addr < d.addr) (h2 : d.addr < last.addr)
    (hstd : ¬ (last.pos = d.pos ∧ w + d.pos < len first last)) (h : ¬ InOneWord w (d.addr - len first last) (len first last)) :
    ∃ m0, SameMapped m m0 ∧ ∀ r m', copyBackward S first last d m0 = .ok (r, m') →
      ¬ Copied m0 m' first.addr (d.addr - len first last) (len first last) := by
  have hw : 0 < w := Nat.lt_of_le_of_lt (Nat.zero_le _) hr.1
  obtain ⟨s, hs⟩ : ∃ s : Nat, last.addr = d.addr + s := ⟨(last.addr - d.addr).toNat, by omega⟩
  have hm0 : 0 ≤ (d.addr - 1) % (w : Int) := Int.emod_nonneg _ (by omega)
  have hm1 : (d.addr - 1) % (w : Int) < w := Int.emod_lt_of_pos _ (by omega)
  obtain ⟨n, hn⟩ : ∃ n : Nat, len first last = n := ⟨(len first last).toNat, by unfold len; omega⟩
  have hn' : last.addr = first.addr + n := by unfold len at hn; omega
  obtain ⟨j, hj1, hj2, hj3⟩ : ∃ j : Nat, s ≤ j ∧ j < n ∧ j - s < beforeBack w d.addr j := by
    generalize hk : ((d.addr - 1) % (w : Int)).toNat + 1 = k
    have hkn : k < n := by
      by_contra hc
      apply h
      have e := mod_sub (w := w) (a := d.addr - 1) (i := n - 1) hw (by omega)
      rw [show d.addr - 1 - ((n - 1 : Nat) : Int) = d.addr - n by omega] at e
      have := Int.emod_nonneg (d.addr - n) (show (w : Int) ≠ 0 by omega)
      unfold InOneWord
      rw [hn]
      omega
    -- the bit `k + q` from the right is `q` bits from the end of a word
    have hq : ∀ q : Nat, w - 1 - ((d.addr - 1 - (k + q : Nat)) % (w : Int)).toNat = q % w := by
      intro q
      have hqw := Nat.mod_lt q hw
      have hd2 := Int.mul_ediv_add_emod (d.addr - 1) w
      have hd3 := Nat.div_add_mod q w
      have e : d.addr - 1 - ((k + q : Nat) : Int) = ((w : Int) - 1 - (q % w : Nat)) + w * ((d.addr - 1) / w - (q / w : Nat) - 1) := by
        have : (w : Int) * ((d.addr - 1) / w - (q / w : Nat) - 1) = w * ((d.addr - 1) / w) - ((w * (q / w) : Nat) : Int) - w := by
          push_cast; ring
        rw [this]
        omega
      rw [e, Int.add_mul_emod_self_left, Int.emod_eq_of_lt (by omega) (by omega)]
      omega
    by_cases hc : s ≤ k
    · refine ⟨k, hc, hkn, ?_⟩
      have := hq 0
      rw [Nat.add_zero, Nat.zero_mod] at this
      unfold beforeBack
      rw [this]
      omega
    · refine ⟨s, le_refl _, by omega, ?_⟩
      have := hq (s - k)
      rw [show k + (s - k) = s by omega] at this
      have hmle := Nat.mod_le (s - k) w
      unfold beforeBack
      rw [this]
      omega
  let a0 := d.addr + s - 1 - j
  have hsame : ∀ i, (bitAt (lone m a0) i).isSome = (bitAt m i).isSome := fun i => by rw [bitAt_lone hw, Option.isSome_map]
  refine ⟨lone m a0, hsame, fun r m' hrun hcop => ?_⟩
  have hr0 : Range (lone m a0) first last := ⟨hr.1, hr.2, hr.3, fun i a b => by rw [hsame]; exact hr.4 i a b⟩
  have hd0 : Mapped (lone m a0) (d.addr - len first last) d.addr := fun i a b => by rw [hsame]; exact hdm i a b
  obtain ⟨r', m1, e1, _, _, e2⟩ := C106_backward S _ first last d s hr0 hd hd0 hs hstd
  rw [hrun] at e1
  cases e1
  have ha := e2 (d.addr - 1 - j)
  rw [hcop (d.addr - 1 - j), if_pos (by omega), if_pos (by omega)] at ha
  beta_reduce at ha
  rw [show first.addr + (d.addr - 1 - (j : Int) - (d.addr - len first last)) = a0 by rw [hn]; omega,
    show (d.addr - 1 - (d.addr - 1 - (j : Int))).toNat = j by omega, echoBack, if_pos ⟨hj1, hj3⟩] at ha
  have hz : ∀ i : Nat, i < j → echoBack w (bitAt (lone m a0)) d.addr s i = some false := by
    intro i
    induction i using Nat.strongRecOn with
    | ind i ih =>
      intro hi
      rw [echoBack]
      split
      · exact ih (i - s) (by omega) (by omega)
      · rw [bitAt_lone hw]
        have := hr.4 (d.addr + s - 1 - i) (by omega) (by omega)
        cases hb : bitAt m (d.addr + s - 1 - i) with
        | none => rw [hb] at this; cases this
        | some v => rw [Option.map_some, decide_eq_false (by omega)]
  rw [hz (j - s) (by omega), bitAt_lone hw] at ha
  cases hb : bitAt m a0 with
  | none => rw [hb] at ha; cases ha
  | some v => rw [hb, Option.map_some, decide_eq_true rfl] at ha; cases ha

/-! ### cases -/

/-- Four words of eight bits. -/
def overlapMem : Mem 8 := memOf [0x35#8, 0x00#8, 0x00#8, 0xff#8]

/-- The hypotheses hold for 13 bits moved by 3 bits, and for the same bits moved by 9. -/
example : Range overlapMem ⟨0, 2⟩ ⟨1, 7⟩ ∧ Dest overlapMem ⟨0, 5⟩ (len (⟨0, 2⟩ : BitIter 8) ⟨1, 7⟩) ∧
    (⟨0, 5⟩ : BitIter 8).addr = (⟨0, 2⟩ : BitIter 8).addr + (3 : Nat) ∧
    block1 8 (⟨0, 2⟩ : BitIter 8).addr (⟨0, 5⟩ : BitIter 8).addr (len (⟨0, 2⟩ : BitIter 8) ⟨1, 7⟩).toNat = false ∧
    ¬ InOneWord 8 (⟨0, 5⟩ : BitIter 8).addr (len (⟨0, 2⟩ : BitIter 8) ⟨1, 7⟩) ∧
    Dest overlapMem ⟨1, 3⟩ (len (⟨0, 2⟩ : BitIter 8) ⟨1, 7⟩) :=
  ⟨range_memOf (by decide) (by decide) (by decide) (by decide) (by decide), dest_memOf (by decide) (by decide) (by decide), by decide, by decide,
    by unfold InOneWord; decide, dest_memOf (by decide) (by decide) (by decide)⟩

/-- And for 5 bits moved by 2 inside of a word. -/
example : Range overlapMem ⟨0, 0⟩ ⟨0, 5⟩ ∧ Dest overlapMem ⟨0, 2⟩ (len (⟨0, 0⟩ : BitIter 8) ⟨0, 5⟩) ∧
    InOneWord 8 (⟨0, 2⟩ : BitIter 8).addr (len (⟨0, 0⟩ : BitIter 8) ⟨0, 5⟩) :=
  ⟨range_memOf (by decide) (by decide) (by decide) (by decide) (by decide), dest_memOf (by decide) (by decide) (by decide),
    by unfold InOneWord; decide⟩

/-- For binary `transform`: 9 bits, one source 3 bits to the left of the destination and one to the right; and 5 bits in a word. -/
example : Range overlapMem ⟨0, 2⟩ ⟨1, 3⟩ ∧ Dest overlapMem ⟨0, 7⟩ (len (⟨0, 2⟩ : BitIter 8) ⟨1, 3⟩) ∧
    Dest overlapMem ⟨0, 5⟩ (len (⟨0, 2⟩ : BitIter 8) ⟨1, 3⟩) ∧ (∀ (x y : BitVec 8) i, i < 8 → (x ^^^ y).getLsbD i = (x.getLsbD i ^^ y.getLsbD i)) :=
  ⟨range_memOf (by decide) (by decide) (by decide) (by decide) (by decide), dest_memOf (by decide) (by decide) (by decide),
    dest_memOf (by decide) (by decide) (by decide), by intro x y i _; simp⟩

/-- The exclusive or of neighbours, in place. The first bit of the second word is computed from the last of the first word as it has been written, a
one, which was zero before. -/
example : runOn (transform2 S8 (fun x y => x ^^^ y) ⟨0, 0⟩ ⟨1, 7⟩ ⟨0, 1⟩ ⟨0, 1⟩) [0x41#8, 0x00#8] = .ok (⟨2, 0⟩, [0xc3#8, 0x01#8]) := by
  decide +kernel

/-- For `copy_backward`: 5 bits moved to the left by 2, up to the end of a word. -/
example : Range overlapMem ⟨0, 5⟩ ⟨1, 2⟩ ∧ Mapped overlapMem ((⟨1, 0⟩ : BitIter 8).addr - len (⟨0, 5⟩ : BitIter 8) ⟨1, 2⟩) (⟨1, 0⟩ : BitIter 8).addr ∧
    InOneWord 8 ((⟨1, 0⟩ : BitIter 8).addr - len (⟨0, 5⟩ : BitIter 8) ⟨1, 2⟩) (len (⟨0, 5⟩ : BitIter 8) ⟨1, 2⟩) :=
  ⟨range_memOf (by decide) (by decide) (by decide) (by decide) (by decide), mapped_memOf (by decide) (by decide) (by decide),
    by unfold InOneWord; decide⟩

/-- `copy` to the right by 3 bits: the second word of the destination takes bits that the first has just overwritten. -/
example : runOn (copy S8 ⟨0, 2⟩ ⟨1, 7⟩ ⟨0, 5⟩) [0x35#8, 0x00#8, 0x00#8] = .ok (⟨2, 2⟩, [0xb5#8, 0x05#8, 0x00#8]) := by decide +kernel

/-- The hypotheses for `copy_backward`, 8 bits moved to the left by 4, into two words. -/
example : Range (memOf [0x00#8, 0x02#8, 0x00#8]) ⟨1, 0⟩ ⟨2, 0⟩ ∧
    Mapped (memOf [0x00#8, 0x02#8, 0x00#8]) ((⟨1, 4⟩ : BitIter 8).addr - len (⟨1, 0⟩ : BitIter 8) ⟨2, 0⟩) (⟨1, 4⟩ : BitIter 8).addr ∧
    (⟨2, 0⟩ : BitIter 8).addr = (⟨1, 4⟩ : BitIter 8).addr + (4 : Nat) ∧
    ¬ ((⟨2, 0⟩ : BitIter 8).pos = (⟨1, 4⟩ : BitIter 8).pos ∧ (8 : Nat) + ((⟨1, 4⟩ : BitIter 8).pos : Int) < len (⟨1, 0⟩ : BitIter 8) ⟨2, 0⟩) ∧
    ¬ InOneWord 8 ((⟨1, 4⟩ : BitIter 8).addr - len (⟨1, 0⟩ : BitIter 8) ⟨2, 0⟩) (len (⟨1, 0⟩ : BitIter 8) ⟨2, 0⟩) :=
  ⟨range_memOf (by decide) (by decide) (by decide) (by decide) (by decide), mapped_memOf (by decide) (by decide) (by decide), by decide,
    by decide, by unfold InOneWord; decide⟩

/-- Bit 5 of the first word should become one, as bit 1 of the second word is, which has been overwritten before. -/
example : runOn (copyBackward S8 ⟨1, 0⟩ ⟨2, 0⟩ ⟨1, 4⟩) [0x00#8, 0x02#8, 0x00#8] = .ok (⟨0, 4⟩, [0x00#8, 0x00#8, 0x00#8]) := by decide +kernel

end BitLib
