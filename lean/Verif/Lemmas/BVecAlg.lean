import Verif.Props.Vector2
import Verif.Props.Copy
import Verif.Props.Query
import Verif.Props.Shift
import Verif.Props.Rotate
/- Algorithms on the elements of a vector: from bit addresses to lists. -/
namespace BitLib
variable {w : Nat} {α β : Type}

/-! ### Lists -/

theorem slice_length (l : List Bool) {a b : Nat} (hb : b ≤ l.length) : (slice l a b).length = b - a := by
  unfold slice; simp; omega

theorem slice_get (l : List Bool) (a b i : Nat) : (slice l a b)[i]? = if a + i < b then l[a + i]? else none := by
  unfold slice
  rw [List.getElem?_drop, List.getElem?_take]

theorem splice_length (l s : List Bool) {k : Nat} (h : k + s.length ≤ l.length) : (splice l k s).length = l.length := by
  unfold splice; simp; omega

theorem splice_get (l s : List Bool) {k : Nat} (h : k + s.length ≤ l.length) (i : Nat) :
    (splice l k s)[i]? = if k ≤ i ∧ i < k + s.length then s[i - k]? else l[i]? := by
  unfold splice
  rw [List.append_assoc, List.getElem?_append, List.length_take, Nat.min_eq_left (by omega)]
  by_cases h1 : i < k
  · rw [if_pos h1, List.getElem?_take, if_pos h1, if_neg (by omega)]
  · rw [if_neg h1, List.getElem?_append]
    by_cases h2 : i < k + s.length
    · rw [if_pos (by omega), if_pos (by omega)]
    · rw [if_neg (by omega), if_neg (by omega), List.getElem?_drop]
      congr 1; omega

theorem splice_slice (l : List Bool) {a b : Nat} (hab : a ≤ b) (hb : b ≤ l.length) : splice l a (slice l a b) = l := by
  have hl := slice_length l (a := a) hb
  refine List.ext_getElem? fun i => ?_
  rw [splice_get _ _ (by omega), slice_get, hl]
  split_ifs with h1 h2
  · congr 1; omega
  · omega
  · rfl

/-! ### Ranges of a vector -/

/-- The word and bit of a position. -/
theorem IsPos.eq (hw : 0 < w) {v : BV} {it : BitIter w} {d : Nat} (h : IsPos v it d) : it = ⟨v.vec.ptr + ((d / w : Nat) : Int), d % w⟩ := by
  refine BitIter.addr_inj h.1 (Nat.mod_lt _ hw) ?_
  rw [h.2]
  show _ = (v.vec.ptr + ((d / w : Nat) : Int)) * (w : Int) + ((d % w : Nat) : Int)
  have h2 : ((w * (d / w) + d % w : Nat) : Int) = (d : Int) := by exact_mod_cast Nat.div_add_mod d w
  have h3 : (v.vec.ptr + ((d / w : Nat) : Int)) * (w : Int) = v.vec.ptr * (w : Int) + (w : Int) * ((d / w : Nat) : Int) := by ring
  rw [Int.natCast_add, Int.natCast_mul] at h2
  omega

theorem HoldsSeq.range {h : Heap w} {first last : BitIter w} {s : List Bool} (hs : HoldsSeq h first last s) : Range h.mem first last := by
  have hl := hs.len
  refine ⟨hs.validFirst, hs.validLast, by omega, ?_⟩
  intro i h1 h2
  have := hs.bits (i - first.addr).toNat (by omega)
  rw [show first.addr + (((i - first.addr).toNat : Nat) : Int) = i by omega] at this
  rw [this]; rfl

theorem HoldsSeq.bit {h : Heap w} {first last : BitIter w} {s : List Bool} (hs : HoldsSeq h first last s) {j : Int} (h0 : 0 ≤ j)
    (h1 : j < (s.length : Int)) : bitAt h.mem (first.addr + j) = s[j.toNat]? := by
  have := hs.bits j.toNat (by omega)
  rw [show ((j.toNat : Nat) : Int) = j by omega] at this
  rw [this, List.getElem?_eq_getElem]

theorem Rep.holds {h : Heap w} {v : BV} {l : List Bool} (r : Rep h v l) {first last : BitIter w} {a b : Nat} (hf : IsPos v first a)
    (hl : IsPos v last b) (hab : a ≤ b) (hb : b ≤ l.length) : HoldsSeq h first last (slice l a b) := by
  have e := slice_length l (a := a) hb
  have h1 := hf.2
  have h2 := hl.2
  refine ⟨hf.1, hl.1, by omega, ?_⟩
  intro i hi
  rw [h1, Int.add_assoc, r.bit (by omega) (by omega), ← List.getElem?_eq_getElem hi, slice_get, if_pos (by omega)]
  congr 1

theorem Rep.fitInt {h : Heap w} {v : BV} {l : List Bool} (r : Rep h v l) : (l.length : Int) ≤ (v.vec.size : Int) * (w : Int) := by
  have := r.fit
  rw [r.len] at this
  exact_mod_cast this

theorem Rep.dest {h : Heap w} {v : BV} {l : List Bool} (r : Rep h v l) {d : BitIter w} {k : Nat} (hd : IsPos v d k) {n : Int}
    (hn : (k : Int) + n ≤ (l.length : Int)) : Dest h.mem d n := by
  have h1 := hd.2
  have h2 := r.fitInt
  refine ⟨hd.1, fun i h3 h4 => r.ok.mapped i (by omega) (by omega)⟩

/-- An inner position of a word lies in a word of the vector. -/
theorem Rep.word {h : Heap w} {v : BV} {l : List Bool} (r : Rep h v l) {it : BitIter w} {a : Nat} (hi : IsPos v it a)
    (ha : a ≤ l.length) : it.pos = 0 ∨ (bitAt h.mem it.addr).isSome := by
  by_cases h0 : it.pos = 0
  · exact .inl h0
  right
  have h1 := hi.2
  have h2 := r.fit
  have h3 := r.len
  have h4 : a < v.vec.size * w := by
    rcases Nat.lt_or_ge a (v.vec.size * w) with h | h
    · exact h
    · have : a = v.vec.size * w := by omega
      exact absurd (hi.pos_zero.2 (by rw [this]; exact Nat.mul_mod_left _ _)) h0
  rw [h1]
  exact r.mappedBit (by omega) (by exact_mod_cast h4)

/-- New contents of the bits of a vector. -/
theorem Rep.update {h : Heap w} {v : BV} {l l' : List Bool} {m' : Mem w} (hwf : h.WF) (r : Rep h v l) (hlen : l'.length = l.length)
    (hfr : ∀ i, (i < v.vec.ptr * (w : Int) ∨ v.vec.ptr * (w : Int) + (l.length : Int) ≤ i) → bitAt m' i = bitAt h.mem i)
    (hb : ∀ j : Nat, j < l.length → bitAt m' (v.vec.ptr * (w : Int) + (j : Int)) = l'[j]?) :
    VStep h v.vec { h with mem := m' } v.vec ∧ Rep { h with mem := m' } v l' := by
  have hfit := r.fitInt
  have hs : SameMapped h.mem m' := by
    intro i
    by_cases hi : i < v.vec.ptr * (w : Int) ∨ v.vec.ptr * (w : Int) + (l.length : Int) ≤ i
    · rw [hfr i hi]
    · have h1 := hb (i - v.vec.ptr * (w : Int)).toNat (by omega)
      have h2 := r.bits (i - v.vec.ptr * (w : Int)).toNat (by omega)
      rw [show v.vec.ptr * (w : Int) + (((i - v.vec.ptr * (w : Int)).toNat : Nat) : Int) = i by omega] at h1 h2
      rw [h1, h2, List.getElem?_eq_getElem (by omega)]
      rfl
  refine ⟨VStep.ofMem hwf r.ok fun i hi => hfr i (by omega), ⟨r.ok.ofMem hs, by rw [hlen, r.len], r.fit, ?_⟩⟩
  intro i hi
  dsimp only
  rw [hb i (by omega), List.getElem?_eq_getElem]

/-- Replacing a part of a vector. -/
theorem Rep.wrote {h : Heap w} {v : BV} {l s : List Bool} {m' : Mem w} {k : Nat} (hwf : h.WF) (r : Rep h v l)
    (hk : k + s.length ≤ l.length)
    (hm : ∀ i, bitAt m' i = if v.vec.ptr * (w : Int) + (k : Int) ≤ i ∧ i < v.vec.ptr * (w : Int) + (k : Int) + (s.length : Int) then
      s[(i - (v.vec.ptr * (w : Int) + (k : Int))).toNat]? else bitAt h.mem i) :
    VStep h v.vec { h with mem := m' } v.vec ∧ Rep { h with mem := m' } v (splice l k s) := by
  refine r.update hwf (splice_length l s hk) (fun i hi => ?_) (fun j hj => ?_)
  · rw [hm i, if_neg (by omega)]
  · rw [hm, splice_get l s hk]
    by_cases hc : k ≤ j ∧ j < k + s.length
    · rw [if_pos (by omega), if_pos hc]
      congr 1; omega
    · rw [if_neg (by omega), if_neg hc, r.bit (by omega) (by omega)]
      congr 1

theorem HoldsSeq.source {h : Heap w} {first last : BitIter w} {s : List Bool} (hs : HoldsSeq h first last s) (i dst : Int)
    (h1 : dst ≤ i) (h2 : i < dst + (s.length : Int)) : bitAt h.mem (first.addr + (i - dst)) = s[(i - dst).toNat]? :=
  hs.bit (by omega) (by omega)

theorem HoldsSeq.lenEq {h : Heap w} {first last : BitIter w} {s : List Bool} (hs : HoldsSeq h first last s) : BitLib.len first last = (s.length : Int) := by
  have := hs.len
  unfold BitLib.len; omega

end BitLib
