import Verif.Lemmas.BVec3
import Verif.Lemmas.Overshift
import Verif.Lemmas.Popcnt2
/- Runs of `bit_vector` operations that end in undefined behaviour. -/
namespace BitLib
variable {w : Nat} {α β : Type}

theorem fails_gap (hw : 0 < w) {v : BV} {h : Heap w} {d n : Nat}
    (ok : VecOk h v.vec) (hn : 0 < n) (hfit : v.length ≤ v.vec.size * w)
    (h1 : d % w = 0) (h2 : v.length - d = w) (h3 : n < w) :
    fails (shiftRight (Unpromoted w) (v.begin.add (d : Int)) (v.begin.add (v.length : Int)) (n : Int)) h.mem .overshift := by
  have hfi : (v.length : Int) ≤ (v.vec.size : Int) * (w : Int) := by exact_mod_cast hfit
  obtain ⟨p1, p2⟩ := IsPos.begin_add hw v d
  obtain ⟨q1, q2⟩ := IsPos.begin_add hw v v.length
  have hz := (IsPos.begin_add hw v d).pos_zero
  exact fails_shiftRight_word p1 q1 (fun i h1 h2 => ok.mapped i (by omega) (by omega)) (hz.2 h1) (by omega) (by omega) (by omega)

theorem failsV_insert (hw : 0 < w) {P : Policy} {v : BV} {h : Heap w} {l : List Bool} {b : Bool} {pos : BitIter w} {d : Nat}
    (hwf : h.WF) (hr : Rep h v l) (hp : IsPos v pos d) (hd : d ≤ l.length)
    (c1 : d % w = 0) (c2 : l.length + 1 - d = w) (c3 : 1 < w) :
    failsV (v.insert (Unpromoted w) P pos b) h (.ub .overshift) := by
  have hl := hr.len
  obtain ⟨hp1, hp2⟩ := hp
  unfold BV.insert
  refine failsV_bind ?_
  refine wpV_onMem ?_
  rw [wp_distance]
  refine ⟨by rw [BV.begin_addr]; omega, ?_⟩
  rw [BV.begin_addr, show pos.addr - v.vec.ptr * (w : Int) = (d : Int) by omega]
  refine failsV_bind ?_
  refine wpV_room hw hwf hr ?_
  intro vec h1 s1 o1 hf1 hb1
  refine failsV_bind_left (failsV_onMem ?_)
  exact fails_gap (v := ⟨vec, v.length + 1⟩) (n := 1) hw o1 (by omega) hf1 c1
    (by dsimp only; omega) c3

theorem failsV_insertN (hw : 0 < w) {P : Policy} {v : BV} {h : Heap w} {l : List Bool} {b : Bool} {pos : BitIter w} {d n : Nat}
    (hwf : h.WF) (hr : Rep h v l) (hp : IsPos v pos d) (hd : d ≤ l.length) (hfl : FloatOk w v.vec.size l.length n)
    (c0 : 0 < n) (c1 : d % w = 0) (c2 : l.length + n - d = w) (c3 : n < w) :
    failsV (v.insertN (Unpromoted w) P pos n b) h (.ub .overshift) := by
  have hl := hr.len
  obtain ⟨hp1, hp2⟩ := hp
  unfold BV.insertN
  refine failsV_bind ?_
  refine wpV_onMem ?_
  rw [wp_distance]
  refine ⟨by rw [BV.begin_addr]; omega, ?_⟩
  rw [BV.begin_addr, show pos.addr - v.vec.ptr * (w : Int) = (d : Int) by omega, if_neg (by omega)]
  refine failsV_bind ?_
  refine wpV_growFor hw hwf hr hfl ?_
  intro vec h1 s1 o1 hf1 hb1
  refine failsV_bind_left (failsV_onMem ?_)
  exact fails_gap (v := ⟨vec, v.length + n⟩) (n := n) hw o1 (by omega) hf1 c1
    (by dsimp only; omega) c3

theorem failsV_insertRange (hw : 0 < w) {P : Policy} {v : BV} {h : Heap w} {l s : List Bool} {pos first last : BitIter w} {d : Nat}
    (hwf : h.WF) (hr : Rep h v l) (hp : IsPos v pos d) (hd : d ≤ l.length) (hs : HoldsSeq h first last s)
    (hfl : FloatOk w v.vec.size l.length s.length)
    (c0 : s ≠ []) (c1 : d % w = 0) (c2 : l.length + s.length - d = w) (c3 : s.length < w) :
    failsV (v.insertRange (Unpromoted w) P pos first last) h (.ub .overshift) := by
  have hl := hr.len
  have hsl := hs.len
  have hpos : 0 < s.length := List.length_pos_iff.2 c0
  obtain ⟨hp1, hp2⟩ := hp
  unfold BV.insertRange
  refine failsV_bind ?_
  refine wpV_onMem ?_
  rw [wp_distance]
  refine ⟨by rw [BV.begin_addr]; omega, ?_⟩
  rw [BV.begin_addr, show pos.addr - v.vec.ptr * (w : Int) = (d : Int) by omega]
  refine failsV_bind ?_
  refine wpV_onMem ?_
  rw [wp_distance]
  refine ⟨by omega, ?_⟩
  rw [show last.addr - first.addr = (s.length : Int) by omega, toSize_nat]
  dsimp only
  rw [if_neg (by omega)]
  refine failsV_bind ?_
  refine wpV_growFor hw hwf hr hfl ?_
  intro vec h1 s1 o1 hf1 hb1
  refine failsV_bind_left (failsV_onMem ?_)
  exact fails_gap (v := ⟨vec, v.length + s.length⟩) (n := s.length) hw o1 (by omega) hf1 c1
    (by dsimp only; omega) c3

theorem fails_close {v : BV} {h : Heap w} {l : List Bool} {d n : Nat} {first last : BitIter w}
    (hr : Rep h v l) (hn : 0 < n)
    (hp : IsPos v first d) (hq : IsPos v last l.length) (h1 : d % w = 0) (h2 : l.length - d = w) (h3 : n < w) :
    fails (shiftLeft (Unpromoted w) first last (n : Int)) h.mem .overshift := by
  have hl := hr.len
  have hfi : (v.length : Int) ≤ (v.vec.size : Int) * (w : Int) := by exact_mod_cast hr.fit
  have hz := hp.pos_zero
  obtain ⟨p1, p2⟩ := hp
  obtain ⟨q1, q2⟩ := hq
  exact fails_shiftLeft_word p1 q1 (fun i h1 h2 => hr.ok.mapped i (by omega) (by omega)) (hz.2 h1) (by omega) (by omega) (by omega)

theorem failsV_erase (hw : 0 < w) {v : BV} {h : Heap w} {l : List Bool} {pos : BitIter w} {d : Nat}
    (hr : Rep h v l) (hp : IsPos v pos d)
    (c1 : d % w = 0) (c2 : l.length - d = w) (c3 : 1 < w) :
    failsV (v.erase (Unpromoted w) pos) h (.ub .overshift) := by
  unfold BV.erase
  refine failsV_bind_left (failsV_onMem ?_)
  exact fails_close (n := 1) hr (by omega) hp (by rw [← hr.len]; exact IsPos.begin_add hw v _) c1 c2 c3

theorem failsV_eraseRange (hw : 0 < w) {P : Policy} {v : BV} {h : Heap w} {l : List Bool} {first last : BitIter w} {a b : Nat}
    (hr : Rep h v l) (hp : IsPos v first a) (hq : IsPos v last b) (hab : a < b)
    (c1 : a % w = 0) (c2 : l.length - a = w) (c3 : b - a < w) :
    failsV (v.eraseRange (Unpromoted w) P first last) h (.ub .overshift) := by
  have hp2 := hp.2
  have hq2 := hq.2
  unfold BV.eraseRange
  refine failsV_bind ?_
  refine wpV_onMem ?_
  rw [wp_distance]
  refine ⟨by rw [BV.begin_addr]; omega, ?_⟩
  refine failsV_bind ?_
  refine wpV_onMem ?_
  rw [wp_distance]
  refine ⟨by omega, ?_⟩
  rw [show last.addr - first.addr = ((b - a : Nat) : Int) by omega, if_neg (by omega)]
  refine failsV_bind_left (failsV_onMem ?_)
  exact fails_close (n := b - a) hr (by omega) hp (by rw [← hr.len]; exact IsPos.begin_add hw v _) c1 c2 c3

/-! ### Single precision -/

theorem growFor_2_24 {P : Policy} {v : BV} {h : Heap w} (hlen : v.length = 2 ^ 24) (hfull : v.vec.size * w = 2 ^ 24) :
    BV.growFor P v 1 h = .ok (v.vec, h) := by
  unfold BV.growFor
  rw [hlen, hfull]
  have h1 : ¬ f32 (2 ^ 24 + 1) > f32 (2 ^ 24) := by decide
  rw [if_neg h1]
  rfl

theorem shiftRight_one (S : ShiftSem w) (hw : 0 < w) (it : BitIter w) (m : Mem w) :
    shiftRight S it (it.add 1) 1 m = .ok (it.add 1, m) := by
  unfold shiftRight
  have hd : wp (distance it (it.add 1)) m fun d m' => d = 1 ∧ m' = m := by
    rw [wp_distance, BitIter.add_addr hw]
    exact ⟨by omega, by omega, rfl⟩
  obtain ⟨d, m', h1, h2, h3⟩ := hd
  subst h2 h3
  show (Except.bind (distance it (it.add 1) m') fun p => _) = _
  rw [h1]
  rfl

theorem fails_fill_one (S : ShiftSem w) (hw : 1 < w) {a : Int} {b : Bool} {m : Mem w} (hm : m a = none) :
    fails (fill S ⟨a, 0⟩ ((⟨a, 0⟩ : BitIter w).add 1) b) m .outOfBounds := by
  have hv : (⟨a, 0⟩ : BitIter w).Valid := by show 0 < w; omega
  have hadd := BitIter.add_addr (by omega : 0 < w) (⟨a, 0⟩ : BitIter w) 1
  unfold fill
  refine fails_bind ?_
  rw [wp_assertViable]
  refine ⟨by omega, ?_⟩
  refine fails_bind ?_
  rw [wp_distance]
  refine ⟨by omega, ?_⟩
  rw [show ((⟨a, 0⟩ : BitIter w).add 1).addr - (⟨a, 0⟩ : BitIter w).addr = 1 by omega, if_neg (by omega),
    if_pos ((isWithin_iff _ _ _ hv (BitIter.add_valid (by omega) _ _) (by omega)).2 (by omega))]
  unfold writeWord
  rw [if_neg (by simp; omega)]
  refine fails_bind ?_
  rw [S.shl_ok (by show 0 < w; omega), wp_lift_ok]
  refine fails_bind_left ?_
  unfold blendAt
  exact fails_bind_left (fails_load hm)

theorem fails_copy_one (S : ShiftSem w) (hw : 1 < w) {a : Int} {first last : BitIter w} {m : Mem w} (hf : first.Valid) (hl : last.Valid)
    (hlen : last.addr = first.addr + 1) (hs : (bitAt m first.addr).isSome) (hm : m a = none) :
    fails (copy S first last ⟨a, 0⟩) m .outOfBounds := by
  unfold copy
  refine fails_bind ?_
  rw [wp_assertViable]
  refine ⟨by omega, ?_⟩
  have hne : ¬ (first.beq last = true) := by
    rw [BitIter.beq_iff hf hl]; omega
  rw [if_neg hne]
  refine fails_bind ?_
  rw [wp_distance]
  refine ⟨by omega, ?_⟩
  rw [show last.addr - first.addr = 1 by omega]
  dsimp only
  refine fails_bind ?_
  unfold copyHead
  rw [if_neg (by simp), wp_pure]
  dsimp only
  rw [if_pos (by decide), if_neg (by omega)]
  refine fails_bind_left ?_
  show fails (copyLoop S 2 1 first a) m _
  unfold copyLoop
  rw [if_neg (by omega)]
  unfold copyTail
  rw [if_pos (by decide)]
  refine fails_bind ?_
  refine wp_getWord S hf (by omega) (by omega) ?_ ?_
  · intro i h1 h2
    rw [show i = first.addr by omega]; exact hs
  intro x _
  unfold blendLowAt
  exact fails_bind_left (fails_load hm)

theorem begin_end_2_24 (hw : 0 < w) {v : BV} (hfull : v.vec.size * w = 2 ^ 24) :
    (BV.begin v : BitIter w).add ((2 ^ 24 : Nat) : Int) = ⟨v.vec.ptr + v.vec.size, 0⟩ := by
  refine BitIter.addr_inj (BitIter.add_valid hw _ _) hw ?_
  rw [BitIter.add_addr hw, BV.begin_addr, ← hfull]
  show _ = (v.vec.ptr + (v.vec.size : Int)) * (w : Int) + ((0 : Nat) : Int)
  push_cast
  rw [Int.add_mul]
  omega

theorem begin_add_succ (hw : 0 < w) (v : BV) (n : Nat) :
    (BV.begin v : BitIter w).add ((n + 1 : Nat) : Int) = ((BV.begin v : BitIter w).add (n : Int)).add 1 := by
  refine BitIter.addr_inj (BitIter.add_valid hw _ _) (BitIter.add_valid hw _ _) ?_
  rw [BitIter.add_addr hw, BitIter.add_addr hw, BitIter.add_addr hw]
  omega

theorem failsV_insertN_float (S : ShiftSem w) (hw : 1 < w) {P : Policy} {v : BV} {h : Heap w} {b : Bool} {pos : BitIter w}
    (hlen : v.length = 2 ^ 24) (hfull : v.vec.size * w = 2 ^ 24) (hp : IsPos v pos (2 ^ 24))
    (hm : h.mem (v.vec.ptr + (v.vec.size : Int)) = none) :
    failsV (v.insertN S P pos 1 b) h (.ub .outOfBounds) := by
  obtain ⟨hp1, hp2⟩ := hp
  have hw0 : 0 < w := by omega
  unfold BV.insertN
  refine failsV_bind ?_
  refine wpV_onMem ?_
  rw [wp_distance]
  refine ⟨by rw [BV.begin_addr]; omega, ?_⟩
  rw [BV.begin_addr, show pos.addr - v.vec.ptr * (w : Int) = ((2 ^ 24 : Nat) : Int) by omega, if_neg (by omega)]
  refine failsV_bind ⟨_, _, growFor_2_24 hlen hfull, ?_⟩
  dsimp only
  have e1 := begin_add_succ (w := w) hw0 ⟨v.vec, v.length + 1⟩ (2 ^ 24)
  have e2 := begin_end_2_24 (v := ⟨v.vec, v.length + 1⟩) hw0 hfull
  dsimp only at e2
  have e3 := shiftRight_one S hw0 ((BV.begin ⟨v.vec, v.length + 1⟩ : BitIter w).add ((2 ^ 24 : Nat) : Int)) h.mem
  rw [← e1] at e3
  refine failsV_bind (wpV_onMem (h := ⟨h.mem, h.next⟩) ⟨_, _, (by rw [hlen] at e3 ⊢; exact e3), ?_⟩)
  refine failsV_bind_left (failsV_onMem ?_)
  rw [e2]
  exact fails_fill_one S hw hm

theorem failsV_insertRange_float (S : ShiftSem w) (hw : 1 < w) {P : Policy} {v : BV} {h : Heap w} {pos first last : BitIter w} {x : Bool}
    (hlen : v.length = 2 ^ 24) (hfull : v.vec.size * w = 2 ^ 24) (hp : IsPos v pos (2 ^ 24)) (hs : HoldsSeq h first last [x])
    (hm : h.mem (v.vec.ptr + (v.vec.size : Int)) = none) :
    failsV (v.insertRange S P pos first last) h (.ub .outOfBounds) := by
  obtain ⟨hp1, hp2⟩ := hp
  have hw0 : 0 < w := by omega
  have hsl := hs.len
  rw [List.length_singleton] at hsl
  have hbit := hs.bits 0 (by simp)
  rw [show first.addr + ((0 : Nat) : Int) = first.addr by omega] at hbit
  unfold BV.insertRange
  refine failsV_bind ?_
  refine wpV_onMem ?_
  rw [wp_distance]
  refine ⟨by rw [BV.begin_addr]; omega, ?_⟩
  rw [BV.begin_addr, show pos.addr - v.vec.ptr * (w : Int) = ((2 ^ 24 : Nat) : Int) by omega]
  refine failsV_bind ?_
  refine wpV_onMem ?_
  rw [wp_distance]
  refine ⟨by omega, ?_⟩
  rw [show last.addr - first.addr = ((1 : Nat) : Int) by omega, toSize_nat]
  dsimp only
  rw [if_neg (by omega)]
  refine failsV_bind ⟨_, _, growFor_2_24 hlen hfull, ?_⟩
  dsimp only
  have e1 := begin_add_succ (w := w) hw0 ⟨v.vec, v.length + 1⟩ (2 ^ 24)
  have e2 := begin_end_2_24 (v := ⟨v.vec, v.length + 1⟩) hw0 hfull
  dsimp only at e2
  have e3 := shiftRight_one S hw0 ((BV.begin ⟨v.vec, v.length + 1⟩ : BitIter w).add ((2 ^ 24 : Nat) : Int)) h.mem
  rw [← e1] at e3
  refine failsV_bind (wpV_onMem (h := ⟨h.mem, h.next⟩) ⟨_, _, (by rw [hlen] at e3 ⊢; exact e3), ?_⟩)
  refine failsV_bind_left (failsV_onMem ?_)
  rw [e2]
  exact fails_copy_one S hw hs.validFirst hs.validLast hsl (by rw [hbit]; rfl) hm

theorem resize_size {P : Policy} {v a : Vec} {n : Nat} {h h' : Heap w} (e : v.resize P n h = .ok (a, h')) : a.size = n := by
  have e' : wpV (v.resize P n) h fun b _ => b = a := ⟨a, h', e, rfl⟩
  unfold Vec.resize at e'
  split_ifs at e' with c1
  · obtain ⟨b, h1, e1, rfl⟩ := e'
    cases e1; rfl
  · rw [wpV_bind] at e'
    obtain ⟨y, h4, -, b, h5, e5, rfl⟩ := e'
    cases e5; rfl

theorem distance_heap {p q : BitIter w} {d : Int} {h h1 : Heap w} (e : onMem (distance p q) h = .ok (d, h1)) : h1 = h := by
  unfold onMem at e
  cases hx : distance p q h.mem with
  | error x => rw [hx] at e; cases e
  | ok r =>
    have hd : wp (distance p q) h.mem fun _ m => m = r.2 := ⟨r.1, r.2, hx, rfl⟩
    rw [wp_distance] at hd
    rw [hx] at e
    cases e
    rw [← hd.2]

/-- What a successful run of `growFor` has computed. -/
theorem growFor_inv {P : Policy} {v : BV} {n : Nat} {h h1 : Heap w} {vec : Vec} (e : BV.growFor P v n h = .ok (vec, h1))
    (hfit : v.length + n ≤ vec.size * w) : FloatOk w v.vec.size v.length n := by
  unfold BV.growFor at e
  unfold FloatOk
  split_ifs at e with hc
  · rw [if_pos hc]
    have e' : wpV (onMem (lift (floatToU32 (f32 (f32 (v.length + n) - f32 (v.vec.size * w))))) >>= fun x =>
        v.vec.resize P (v.vec.size + wordCount w x)) h fun a _ => a = vec := ⟨vec, h1, e, rfl⟩
    rw [wpV_bind] at e'
    obtain ⟨x, h2, ex, e2⟩ := e'
    unfold floatToU32 at ex
    split_ifs at ex with hx
    · have hxx : x = f32 (f32 (v.length + n) - f32 (v.vec.size * w)) := by cases ex; rfl
      subst hxx
      refine ⟨hx, ?_⟩
      obtain ⟨a, h3, e3, rfl⟩ := e2
      have hsz := resize_size e3
      rw [← hsz]; exact hfit
    · cases ex
  · rw [if_neg hc]
    cases e
    exact hfit

/-- The size of the result of `insert(pos, count, value)` is right only if single precision was enough. -/
theorem insertN_float {S : ShiftSem w} {P : Policy} {v v' : BV} {h h' : Heap w} {pos it : BitIter w} {n : Nat} {b : Bool} (hn : 0 < n)
    (e : v.insertN S P pos n b h = .ok ((v', it), h')) (hfit : v'.length ≤ v'.vec.size * w) : FloatOk w v.vec.size v.length n := by
  have e' : wpV (v.insertN S P pos n b) h fun r _ => r.1 = v' := ⟨_, _, e, rfl⟩
  unfold BV.insertN at e'
  rw [wpV_bind] at e'
  obtain ⟨d, h1, e1, e'⟩ := e'
  rw [if_neg (by omega), wpV_bind] at e'
  have h1h := distance_heap e1
  subst h1h
  obtain ⟨vec, h2, e2, e'⟩ := e'
  dsimp only at e'
  rw [wpV_bind] at e'
  obtain ⟨-, h3, -, e'⟩ := e'
  rw [wpV_bind] at e'
  obtain ⟨-, h4, -, r, h5, e5, e6⟩ := e'
  cases e5
  subst e6
  exact growFor_inv e2 hfit

theorem insertRange_float {S : ShiftSem w} {P : Policy} {v v' : BV} {h h' : Heap w} {pos first last it : BitIter w} {n : Nat} (hn : 0 < n)
    (hlen : last.addr = first.addr + (n : Int))
    (e : v.insertRange S P pos first last h = .ok ((v', it), h')) (hfit : v'.length ≤ v'.vec.size * w) :
    FloatOk w v.vec.size v.length n := by
  have e' : wpV (v.insertRange S P pos first last) h fun r _ => r.1 = v' := ⟨_, _, e, rfl⟩
  unfold BV.insertRange at e'
  rw [wpV_bind] at e'
  obtain ⟨d, h1, e1, e'⟩ := e'
  rw [wpV_bind] at e'
  obtain ⟨c, h2, e2, e'⟩ := e'
  have h1h := distance_heap e1
  subst h1h
  have hd : wp (distance first last) h1.mem fun d m => d = (n : Int) ∧ m = h1.mem := by
    rw [wp_distance]; exact ⟨by omega, by omega, rfl⟩
  obtain ⟨x, m, hx1, rfl, rfl⟩ := hd
  unfold onMem at e2
  rw [hx1] at e2
  cases e2
  rw [toSize_nat] at e'
  dsimp only at e'
  rw [if_neg (by omega), wpV_bind] at e'
  obtain ⟨vec, h3, e3, e'⟩ := e'
  rw [wpV_bind] at e'
  obtain ⟨-, h4, -, e'⟩ := e'
  rw [wpV_bind] at e'
  obtain ⟨-, h5, -, r, h6, e5, e6⟩ := e'
  cases e5
  subst e6
  exact growFor_inv e3 hfit

/-- What a successful run of `erase(first, last)` has computed. -/
theorem eraseRange_size {S : ShiftSem w} {P : Policy} {v v' : BV} {h h' : Heap w} {first last it : BitIter w} {n : Nat} (hn : 0 < n)
    (hlen : last.addr = first.addr + (n : Int)) (hle : n ≤ v.length)
    (e : v.eraseRange S P first last h = .ok ((v', it), h')) : v'.length = v.length - n ∧ v'.vec.size = wordCount w (v.length - n) := by
  have e' : wpV (v.eraseRange S P first last) h fun r _ => r.1 = v' := ⟨_, _, e, rfl⟩
  unfold BV.eraseRange at e'
  rw [wpV_bind] at e'
  obtain ⟨d, h1, e1, e'⟩ := e'
  rw [wpV_bind] at e'
  obtain ⟨c, h2, e2, e'⟩ := e'
  have h1h := distance_heap e1
  subst h1h
  have hd : wp (distance first last) h1.mem fun d m => d = (n : Int) ∧ m = h1.mem := by
    rw [wp_distance]; exact ⟨by omega, by omega, rfl⟩
  obtain ⟨x, m, hx1, rfl, rfl⟩ := hd
  unfold onMem at e2
  rw [hx1] at e2
  cases e2
  rw [if_neg (by omega), wpV_bind] at e'
  obtain ⟨-, h3, -, e'⟩ := e'
  rw [show (v.length : Int) - (n : Int) = ((v.length - n : Nat) : Int) by omega, toSize_nat] at e'
  dsimp only at e'
  rw [wpV_bind] at e'
  obtain ⟨vec, h4, e4, r, h5, e5, e6⟩ := e'
  cases e5
  subst e6
  refine ⟨rfl, ?_⟩
  show vec.size = _
  exact resize_size e4

/-! ### `debug_string` -/

theorem fails_debugLoop (S : ShiftSem w) (hw : 0 < w) {m : Mem w} (rest : List Bool) {fuel pos : Nat} {it last : BitIter w} {acc : List Char}
    (hit : it.Valid) (hla : last.Valid) (hlen : last.addr = it.addr + rest.length)
    (hfuel : rest.length < fuel) (hpos : 2 ^ 31 ≤ pos + rest.length) (hp : pos < 2 ^ 31)
    (hb : ∀ (i : Nat) (hi : i < rest.length), bitAt m (it.addr + (i : Int)) = some rest[i]) :
    fails (BV.debugLoop S fuel it last pos acc) m .signedOverflow := by
  induction rest generalizing fuel pos it acc with
  | nil => simp at hpos; omega
  | cons b rest ih =>
    rw [List.length_cons] at hlen hfuel hpos
    obtain ⟨fuel, rfl⟩ : ∃ k, fuel = k + 1 := ⟨fuel - 1, by omega⟩
    unfold BV.debugLoop
    have hne : it.bne last = true := by
      have hb := BitIter.beq_iff hit hla
      unfold BitIter.beq at hb
      unfold BitIter.bne
      rw [decide_eq_true_iff]
      by_contra hc
      have h1 : it.base = last.base ∧ it.pos = last.pos := by omega
      have := hb.1 (decide_eq_true h1)
      omega
    rw [if_pos hne]
    dsimp only
    refine fails_bind ?_
    refine wp_deref S hit ?_
    intro r hr
    refine fails_bind ?_
    have hb0 := hb 0 (by rw [List.length_cons]; omega)
    rw [show it.addr + ((0 : Nat) : Int) = it.addr by omega] at hb0
    refine wp_refRead hr hb0 ?_
    by_cases hc : pos + 1 < 2 ^ 31
    · rw [if_pos hc]
      have hi : it.inc.addr = it.addr + 1 := by rw [BitIter.inc_eq_add hit, BitIter.add_addr hw]
      have hiv : it.inc.Valid := by rw [BitIter.inc_eq_add hit]; exact BitIter.add_valid hw _ _
      refine ih hiv (by omega) (by omega) (by omega) hc ?_
      intro i hi'
      have := hb (i + 1) (by rw [List.length_cons]; omega)
      rw [hi, show it.addr + 1 + (i : Int) = it.addr + ((i + 1 : Nat) : Int) by omega, this]
      rfl
    · rw [if_neg hc]; rfl

theorem failsV_debugString (S : ShiftSem w) (hw : 0 < w) {v : BV} {l : List Bool} {h : Heap w}
    (hr : Rep h v l) (hlen : 2 ^ 31 ≤ l.length) : failsV (BV.debugString S v) h (.ub .signedOverflow) := by
  have hl := hr.len
  unfold BV.debugString BV.end
  refine failsV_onMem ?_
  refine fails_debugLoop S hw l (BV.begin_valid hw v) (BitIter.add_valid hw _ _) ?_ (by omega) (by omega) (by decide) ?_
  · rw [BitIter.add_addr hw, hl]
  · intro i hi
    rw [BV.begin_addr]
    exact hr.bits i hi

end BitLib
