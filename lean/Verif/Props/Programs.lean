import Verif.Props.VectorHistory
import Verif.Props.VectorAlg
/-
C65: programs that mix calls of `bit_vector` members with calls of the algorithms on elements of the vectors, and observe results.

A program is a list of `Call`s. `Call.exec` runs the modelled code; `Call.Spec` says what the call does to plain lists and what it answers.
The elements that `shift_left`/`shift_right` vacate, which the standard leaves unspecified, are those of C77. Positions are answered as
`it - begin()`.
-/
namespace BitLib
variable {w : Nat}

/-- What a call lets the program see. -/
inductive Ans where
  | unit
  | pos (n : Int)
  | num (n : Int)
  | bool (b : Bool)
  | text (s : List Char)
  deriving DecidableEq

/-- A call. `[a, b)` are elements of vector `i` (or `j`), `d`, `k`, `c` are positions. -/
inductive Call (w : Nat) where
  /-- a member of `bit_vector` that changes vectors -/
  | vec (op : Op w)
  /-- `copy` the elements `[a, b)` of vector `j` to position `d` of vector `i` -/
  | copy (j a b i d : Nat)
  | move (j a b i d : Nat)
  /-- `copy_backward` with the destination `[d, d + (b - a))` -/
  | copyBackward (j a b i d : Nat)
  | fill (i a b : Nat) (x : Bool)
  | reverse (i a b : Nat)
  | rotate (i a k b : Nat)
  | shiftLeft (i a b n : Nat)
  | shiftRight (i a b n : Nat)
  /-- `swap_ranges` of `[a, b)` of vector `i` and `[k, k + (b - a))` of vector `j` -/
  | swapRanges (i a b j k : Nat)
  /-- `transform` with the word operation `op`, which is `f` on every bit -/
  | transform (op : BitVec w → BitVec w) (f : Bool → Bool) (j a b i d : Nat)
  | transform2 (op : BitVec w → BitVec w → BitVec w) (f : Bool → Bool → Bool) (j a b j2 c i d : Nat)
  | find (i a b : Nat) (x : Bool)
  | count (i a b : Nat) (x : Bool)
  /-- `equal` of `[a, b)` of vector `i` and the elements from `c` on of vector `j` -/
  | equal (i a b j c : Nat)
  | size (i : Nat)
  | get (i k : Nat)
  | debugString (i : Nat)

/-- Run `f` on vector `i`. -/
def withVec {α : Type} (vs : List BV) (i : Nat) (f : BV → V w α) : V w α :=
  match vs[i]? with
  | some v => f v
  | none => ubV .badRange

namespace Call

/-- The iterator `begin() + a`. -/
def it (v : BV) (a : Nat) : BitIter w := (v.begin : BitIter w).add (a : Int)

/-- The modelled code of a call. -/
def exec (S : ShiftSem w) (P : Policy) (vs : List BV) : Call w → V w (List BV × Ans)
  | vec op => op.exec S P vs >>= fun vs' => pure (vs', .unit)
  | copy j a b i d => withVec vs j fun o => withVec vs i fun v =>
      onMem (BitLib.copy S (it o a) (it o b) (it v d)) >>= fun r => pure (vs, .pos (r.diff v.begin))
  | move j a b i d => withVec vs j fun o => withVec vs i fun v =>
      onMem (BitLib.move S (it o a) (it o b) (it v d)) >>= fun r => pure (vs, .pos (r.diff v.begin))
  | copyBackward j a b i d => withVec vs j fun o => withVec vs i fun v =>
      onMem (BitLib.copyBackward S (it o a) (it o b) (it v (d + (b - a)))) >>= fun r => pure (vs, .pos (r.diff v.begin))
  | fill i a b x => withVec vs i fun v => onMem (BitLib.fill S (it v a) (it v b) x) >>= fun _ => pure (vs, .unit)
  | reverse i a b => withVec vs i fun v => onMem (BitLib.reverse S (it v a) (it v b)) >>= fun _ => pure (vs, .unit)
  | rotate i a k b => withVec vs i fun v =>
      onMem (BitLib.rotate S (it v a) (it v k) (it v b)) >>= fun r => pure (vs, .pos (r.diff v.begin))
  | shiftLeft i a b n => withVec vs i fun v =>
      onMem (BitLib.shiftLeft S (it v a) (it v b) (n : Int)) >>= fun r => pure (vs, .pos (r.diff v.begin))
  | shiftRight i a b n => withVec vs i fun v =>
      onMem (BitLib.shiftRight S (it v a) (it v b) (n : Int)) >>= fun r => pure (vs, .pos (r.diff v.begin))
  | swapRanges i a b j k => withVec vs i fun v => withVec vs j fun o =>
      onMem (BitLib.swapRanges S (it v a) (it v b) (it o k)) >>= fun r => pure (vs, .pos (r.diff o.begin))
  | transform op _ j a b i d => withVec vs j fun o => withVec vs i fun v =>
      onMem (BitLib.transform S op (it o a) (it o b) (it v d)) >>= fun r => pure (vs, .pos (r.diff v.begin))
  | transform2 op _ j a b j2 c i d => withVec vs j fun o => withVec vs j2 fun o2 => withVec vs i fun v =>
      onMem (BitLib.transform2 S op (it o a) (it o b) (it o2 c) (it v d)) >>= fun r => pure (vs, .pos (r.diff v.begin))
  | find i a b x => withVec vs i fun v => onMem (BitLib.find S (it v a) (it v b) x) >>= fun r => pure (vs, .pos (r.diff v.begin))
  | count i a b x => withVec vs i fun v => onMem (BitLib.count S (it v a) (it v b) x) >>= fun n => pure (vs, .num n)
  | equal i a b j c => withVec vs i fun v => withVec vs j fun o =>
      onMem (BitLib.equal S (it v a) (it v b) (it o c)) >>= fun r => pure (vs, .bool r)
  | size i => withVec vs i fun v => pure (vs, .num (v.size : Int))
  | get i k => withVec vs i fun v => v.get S k >>= fun x => pure (vs, .bool x)
  | debugString i => withVec vs i fun v => v.debugString S >>= fun s => pure (vs, .text s)

open Op (at')

/-- The call on plain lists: state before, call, state after, answer. -/
def Spec (ls : List (List Bool)) (c : Call w) (ls' : List (List Bool)) (ans : Ans) : Prop :=
  match c with
  | vec op => ls' = op.apply ls ∧ ans = .unit
  | copy j a b i d | move j a b i d =>
    ls' = ls.set i (splice (at' ls i) d (slice (at' ls j) a b)) ∧ ans = .pos ((d + (b - a) : Nat) : Int)
  | copyBackward j a b i d => ls' = ls.set i (splice (at' ls i) d (slice (at' ls j) a b)) ∧ ans = .pos (d : Int)
  | fill i a b x => ls' = ls.set i (splice (at' ls i) a (List.replicate (b - a) x)) ∧ ans = .unit
  | reverse i a b => ls' = ls.set i (splice (at' ls i) a (slice (at' ls i) a b).reverse) ∧ ans = .unit
  | rotate i a k b => ls' = ls.set i (splice (at' ls i) a (slice (at' ls i) k b ++ slice (at' ls i) a k)) ∧ ans = .pos ((a + (b - k) : Nat) : Int)
  | shiftLeft i a b n =>
    if 0 < n ∧ a + n < b then
      ls' = ls.set i (splice (at' ls i) a (slice (at' ls i) (a + n) b ++ vacatedL w (at' ls i) a b n)) ∧ ans = .pos ((b - n : Nat) : Int)
    else ls' = ls ∧ ans = .pos (if n = 0 then (b : Int) else (a : Int))
  | shiftRight i a b n =>
    if 0 < n ∧ a + n < b then
      ls' = ls.set i (splice (at' ls i) a (vacatedR w (at' ls i) a b n ++ slice (at' ls i) a (b - n))) ∧ ans = .pos ((a + n : Nat) : Int)
    else ls' = ls ∧ ans = .pos (if n = 0 then (a : Int) else (b : Int))
  | swapRanges i a b j k =>
    (let l1 := ls.set i (splice (at' ls i) a (slice (at' ls j) k (k + (b - a))))
     ls' = l1.set j (splice (at' l1 j) k (slice (at' ls i) a b))) ∧ ans = .pos ((k + (b - a) : Nat) : Int)
  | transform _ f j a b i d => ls' = ls.set i (splice (at' ls i) d ((slice (at' ls j) a b).map f)) ∧ ans = .pos ((d + (b - a) : Nat) : Int)
  | transform2 _ f j a b j2 c i d =>
    ls' = ls.set i (splice (at' ls i) d (List.zipWith f (slice (at' ls j) a b) (slice (at' ls j2) c (c + (b - a))))) ∧
      ans = .pos ((d + (b - a) : Nat) : Int)
  | find i a b x => ls' = ls ∧ ans = .pos ((a + (slice (at' ls i) a b).findIdx (· == x) : Nat) : Int)
  | count i a b x => ls' = ls ∧ ans = .num ((slice (at' ls i) a b).count x : Int)
  | equal i a b j c => ls' = ls ∧ ans = .bool (decide (slice (at' ls i) a b = slice (at' ls j) c (c + (b - a))))
  | size i => ls' = ls ∧ ans = .num ((at' ls i).length : Int)
  | get i k => ls' = ls ∧ ans = .bool (((at' ls i)[k]?).getD false)
  | debugString i => ls' = ls ∧ ans = .text (grouped w 0 (at' ls i))

/-- `[a, b)` are elements of vector `i`. -/
def Part (ls : List (List Bool)) (i a b : Nat) : Prop := i < ls.length ∧ a ≤ b ∧ b ≤ (at' ls i).length

/-- The precondition of a call: what the standard asks of the corresponding call on `std::vector<bool>`. -/
def Pre (ls : List (List Bool)) : Call w → Prop
  | vec op => op.Pre ls
  | copy j a b i d | move j a b i d => Part ls j a b ∧ Part ls i d (d + (b - a)) ∧ (i = j → d ≤ a ∨ b ≤ d)
  | copyBackward j a b i d => Part ls j a b ∧ Part ls i d (d + (b - a)) ∧ (i = j → a ≤ d ∨ d + (b - a) ≤ a)
  | fill i a b _ | reverse i a b | find i a b _ | count i a b _ | shiftLeft i a b _ | shiftRight i a b _ => Part ls i a b
  | rotate i a k b => Part ls i a b ∧ a ≤ k ∧ k ≤ b
  | swapRanges i a b j k => Part ls i a b ∧ Part ls j k (k + (b - a)) ∧ (i = j → b ≤ k ∨ k + (b - a) ≤ a)
  | transform op f j a b i d => (∀ x i, i < w → (op x).getLsbD i = f (x.getLsbD i)) ∧
      Part ls j a b ∧ Part ls i d (d + (b - a)) ∧ (i = j → d ≤ a ∨ b ≤ d)
  | transform2 op f j a b j2 c i d => (∀ x y i, i < w → (op x y).getLsbD i = f (x.getLsbD i) (y.getLsbD i)) ∧
      Part ls j a b ∧ Part ls j2 c (c + (b - a)) ∧ Part ls i d (d + (b - a)) ∧ (i = j → d ≤ a ∨ b ≤ d) ∧
      (i = j2 → d ≤ c ∨ c + (b - a) ≤ d)
  | equal i a b j c => Part ls i a b ∧ Part ls j c (c + (b - a))
  | size i | debugString i => i < ls.length
  | get i k => i < ls.length ∧ k < (at' ls i).length

/-- The limits of the library found in C14, C18-C20, C26-C34, C37. -/
def Lim (S : ShiftSem w) (ls : List (List Bool)) : Call w → Prop
  | vec op => op.Lim S ls
  | copyBackward _ a b _ d => ¬ (a % w = 0 ∧ b % w = (d + (b - a)) % w ∧ a / w + 2 ≤ b / w) ∨ S.FullShiftOk
  | reverse _ a b => ¬ (a % w ≠ 0 ∧ b = (a / w + 1) * w) ∨ S.FullShiftOk
  | rotate _ a k b => k < b ∧ RotFits w ((k : Int) - a) ((b : Int) - k)
  | shiftLeft _ a b n | shiftRight _ a b n => ¬ (a % w = 0 ∧ b - a = w ∧ 0 < n ∧ n < w) ∨ S.FullShiftOk
  | count i a _ _ => a < (at' ls i).length ∨ (at' ls i).length % w ≠ 0
  | debugString i => (at' ls i).length < 2 ^ 31
  | _ => True

end Call

/-! ### Single calls -/

theorem wpV_withVec {α : Type} {h : Heap w} {vs : List BV} {i : Nat} {v : BV} {f : BV → V w α} {Q : α → Heap w → Prop} (hv : vs[i]? = some v)
    (hf : wpV (f v) h Q) : wpV (withVec vs i f) h Q := by
  unfold withVec
  rw [hv]
  exact hf

theorem list_set_self {α : Type} {l : List α} {i : Nat} {x : α} (h : l[i]? = some x) : l.set i x = l := by
  refine List.ext_getElem? fun k => ?_
  rw [List.getElem?_set]
  split_ifs with h1 h2
  · rw [← h1, h]
  · rw [List.getElem?_eq_none (by omega)]
  · rfl

/-- An algorithm changed elements of vector `i`. -/
theorem EnvOk.step {h h' : Heap w} {vs : List BV} {ls : List (List Bool)} (e : EnvOk h vs ls) {i : Nat} {v : BV} {l' : List Bool}
    (hv : vs[i]? = some v) (s : VStep h v.vec h' v.vec) (r : Rep h' v l') : EnvOk h' vs (ls.set i l') := by
  have := e.update hv s (.inl rfl) r
  rwa [list_set_self hv] at this

theorem IsPos.diff {v : BV} {r : BitIter w} {d : Nat} (h : IsPos v r d) : r.diff v.begin = (d : Int) := by
  rw [BitIter.diff_eq, h.2, BV.begin_addr]; omega

/-- Storage of vectors of a program: the same vector or disjoint. -/
theorem EnvOk.order {h : Heap w} {vs : List BV} {ls : List (List Bool)} (e : EnvOk h vs ls) (hw : 0 < w) {i j : Nat} {v o : BV}
    (hv : vs[i]? = some v) (ho : vs[j]? = some o) {li lj : List Bool} (ri : Rep h v li) (rj : Rep h o lj) (hij : i ≠ j)
    {a b d n : Nat} (hab : a ≤ b) (hb : b ≤ lj.length) (hd : d + n ≤ li.length) (hn : n = b - a) :
    ((Call.it v d : BitIter w).addr ≤ (Call.it o a : BitIter w).addr ∧ (Call.it v (d + n) : BitIter w).addr ≤ (Call.it o a : BitIter w).addr) ∨
      ((Call.it o b : BitIter w).addr ≤ (Call.it v d : BitIter w).addr) ∨ a = b := by
  have f1 := ri.fitInt
  have f2 := rj.fitInt
  have c1 := nat_mul_cast_le (w := w) ri.ok.cap
  have c2 := nat_mul_cast_le (w := w) rj.ok.cap
  have p1 := (IsPos.begin_add hw v d).2
  have p2 := (IsPos.begin_add hw v (d + n)).2
  have p3 := (IsPos.begin_add hw o a).2
  have p4 := (IsPos.begin_add hw o b).2
  unfold Call.it
  rw [p1, p2, p3, p4]
  rcases e.sep i j v o hv ho hij with hc | hc | hc | hc
  · rw [hc, Int.natCast_zero, Int.zero_mul] at c1; right; right; omega
  · rw [hc, Int.natCast_zero, Int.zero_mul] at c2; right; right; omega
  · left; omega
  · right; left; omega


theorem EnvOk.source {h : Heap w} {vs : List BV} {ls : List (List Bool)} (e : EnvOk h vs ls) (hw : 0 < w) {j a b : Nat} (hp : Call.Part ls j a b) :
    ∃ o, vs[j]? = some o ∧ Rep h o (Op.at' ls j) ∧ HoldsSeq h (Call.it o a) (Call.it o b) (slice (Op.at' ls j) a b) := by
  obtain ⟨hj, hab, hb⟩ := hp
  obtain ⟨o, h1, h2, r⟩ := e.get hj
  exact ⟨o, h1, r, r.holds (IsPos.begin_add hw o a) (IsPos.begin_add hw o b) hab hb⟩

/-- The destination of a forward copy does not start inside the source. -/
theorem EnvOk.overlap {h : Heap w} {vs : List BV} {ls : List (List Bool)} (e : EnvOk h vs ls) (hw : 0 < w) {i j : Nat} {v o : BV}
    (hv : vs[i]? = some v) (ho : vs[j]? = some o) (ri : Rep h v (Op.at' ls i)) (rj : Rep h o (Op.at' ls j)) {a b d : Nat} (hab : a ≤ b)
    (hb : b ≤ (Op.at' ls j).length) (hd : d + (b - a) ≤ (Op.at' ls i).length) (hov : i = j → d ≤ a ∨ b ≤ d) :
    (Call.it v d : BitIter w).addr ≤ (Call.it o a : BitIter w).addr ∨ (Call.it o b : BitIter w).addr ≤ (Call.it v d : BitIter w).addr := by
  have p1 := (IsPos.begin_add hw v d).2
  have p3 := (IsPos.begin_add hw o a).2
  have p4 := (IsPos.begin_add hw o b).2
  by_cases hij : i = j
  · subst hij
    rw [hv] at ho
    cases ho
    have := hov rfl
    unfold Call.it
    omega
  · rcases e.order hw hv ho ri rj hij hab hb hd rfl with hc | hc | hc
    · exact .inl hc.1
    · exact .inr hc
    · subst hc
      exact Int.le_total _ _

/-- The destination of a backward copy does not end inside the source. -/
theorem EnvOk.overlapB {h : Heap w} {vs : List BV} {ls : List (List Bool)} (e : EnvOk h vs ls) (hw : 0 < w) {i j : Nat} {v o : BV}
    (hv : vs[i]? = some v) (ho : vs[j]? = some o) (ri : Rep h v (Op.at' ls i)) (rj : Rep h o (Op.at' ls j)) {a b d : Nat} (hab : a ≤ b)
    (hb : b ≤ (Op.at' ls j).length) (hd : d + (b - a) ≤ (Op.at' ls i).length) (hov : i = j → a ≤ d ∨ d + (b - a) ≤ a) :
    (Call.it o b : BitIter w).addr ≤ (Call.it v (d + (b - a)) : BitIter w).addr ∨
      (Call.it v (d + (b - a)) : BitIter w).addr ≤ (Call.it o a : BitIter w).addr := by
  have p1 := (IsPos.begin_add hw v d).2
  have p2 := (IsPos.begin_add hw v (d + (b - a))).2
  have p3 := (IsPos.begin_add hw o a).2
  have p4 := (IsPos.begin_add hw o b).2
  by_cases hij : i = j
  · subst hij
    rw [hv] at ho
    cases ho
    have := hov rfl
    unfold Call.it
    omega
  · rcases e.order hw hv ho ri rj hij hab hb hd rfl with hc | hc | hc
    · exact .inr hc.2
    · left
      unfold Call.it at hc ⊢
      omega
    · subst hc
      exact Int.le_total _ _

/-- Two vectors changed, nothing else. -/
theorem EnvOk.step2 {h : Heap w} {m' : Mem w} {vs : List BV} {ls : List (List Bool)} (e : EnvOk h vs ls) {i j : Nat} {v o : BV} {li lj : List Bool}
    (hv : vs[i]? = some v) (ho : vs[j]? = some o) (hs : SameMapped h.mem m')
    (hfr : ∀ x : Int, (x < v.vec.ptr * (w : Int) ∨ v.vec.ptr * (w : Int) + (v.vec.size : Int) * (w : Int) ≤ x) →
      (x < o.vec.ptr * (w : Int) ∨ o.vec.ptr * (w : Int) + (o.vec.size : Int) * (w : Int) ≤ x) → bitAt m' x = bitAt h.mem x)
    (ri : Rep { h with mem := m' } v li) (rj : Rep { h with mem := m' } o lj) :
    EnvOk { h with mem := m' } vs ((ls.set i li).set j lj) := by
  have hl := e.len
  refine ⟨⟨e.wf.nonneg, fun x hx => ?_⟩, by simp [hl], fun k u l hu hlk => ?_, e.sep⟩
  · have := hs x
    rw [e.wf.unused x hx] at this
    exact Option.not_isSome_iff_eq_none.1 (by rw [this]; simp)
  · by_cases hkj : j = k
    · subst hkj
      rw [List.getElem?_set, if_pos rfl] at hlk
      rw [ho] at hu
      cases hu
      split_ifs at hlk
      cases hlk
      exact rj
    · rw [List.getElem?_set, if_neg hkj] at hlk
      by_cases hki : i = k
      · subst hki
        rw [List.getElem?_set, if_pos rfl] at hlk
        rw [hv] at hu
        cases hu
        split_ifs at hlk
        cases hlk
        exact ri
      · rw [List.getElem?_set, if_neg hki] at hlk
        have r := e.rep k u l hu hlk
        refine ⟨r.ok.ofMem hs, r.len, r.fit, fun x hx => ?_⟩
        have f0 := r.fitInt
        have c0 := nat_mul_cast_le (w := w) r.ok.cap
        have c1 := nat_mul_cast_le (w := w) ri.ok.cap
        have c2 := nat_mul_cast_le (w := w) rj.ok.cap
        have s1 := e.sep i k v u hv hu hki
        have s2 := e.sep j k o u ho hu hkj
        dsimp only
        rw [hfr, r.bits x hx]
        · rcases s1 with hc | hc | hc | hc
          · rw [hc, Int.natCast_zero, Int.zero_mul] at c1; omega
          · rw [hc, Int.natCast_zero, Int.zero_mul] at c0; omega
          · right; omega
          · left; omega
        · rcases s2 with hc | hc | hc | hc
          · rw [hc, Int.natCast_zero, Int.zero_mul] at c2; omega
          · rw [hc, Int.natCast_zero, Int.zero_mul] at c0; omega
          · right; omega
          · left; omega

/-- C65, one call: a valid call within the limits has no undefined behaviour, changes the vectors as it would change plain lists, and answers
what it would answer on plain lists. -/
theorem C65_step_partial (hw : 0 < w) (S : ShiftSem w) (P : Policy) (h : Heap w) (vs : List BV) (ls : List (List Bool)) (c : Call w)
    (e : EnvOk h vs ls) (hpre : c.Pre ls) (hlim : c.Lim S ls) :
    ∃ vs' ans h' ls', c.exec S P vs h = .ok ((vs', ans), h') ∧ c.Spec ls ls' ans ∧ EnvOk h' vs' ls' := by
  suffices hh : wpV (c.exec S P vs) h fun r h' => ∃ ls', c.Spec ls ls' r.2 ∧ EnvOk h' r.1 ls' by
    obtain ⟨⟨vs', ans⟩, h', e1, ls', h1, h2⟩ := hh
    exact ⟨vs', ans, h', ls', e1, h1, h2⟩
  have pos := fun (v : BV) (d : Nat) => IsPos.begin_add hw v d
  cases c with
  | vec op =>
    obtain ⟨vs', h', e1, ok⟩ := C35_step_partial hw S P h vs ls op e hpre hlim
    unfold Call.exec
    rw [wpV_bind]
    exact ⟨vs', h', e1, wpV_pure ⟨_, ⟨rfl, rfl⟩, ok⟩⟩
  | copy j a b i d =>
    obtain ⟨p1, p2, hov⟩ := hpre
    obtain ⟨o, ho, ro, hs⟩ := e.source hw p1
    obtain ⟨v, hv, rv, _⟩ := e.source hw p2
    have hl := slice_length (Op.at' ls j) (a := a) p1.2.2
    refine wpV_withVec ho (wpV_withVec hv ?_)
    rw [wpV_bind]
    obtain ⟨r, h', e1, h1, h2, h3⟩ := C64_copy S h v _ _ _ _ _ d e.wf rv hs (pos v d) (by rw [hl]; exact p2.2.2)
      (e.overlap hw hv ho rv ro p1.2.1 p1.2.2 p2.2.2 hov)
    rw [hl] at h1
    exact ⟨r, h', e1, wpV_pure ⟨_, ⟨rfl, congrArg Ans.pos h1.diff⟩, e.step hv h2 h3⟩⟩
  | move j a b i d =>
    obtain ⟨p1, p2, hov⟩ := hpre
    obtain ⟨o, ho, ro, hs⟩ := e.source hw p1
    obtain ⟨v, hv, rv, _⟩ := e.source hw p2
    have hl := slice_length (Op.at' ls j) (a := a) p1.2.2
    refine wpV_withVec ho (wpV_withVec hv ?_)
    rw [wpV_bind]
    obtain ⟨r, h', e1, h1, h2, h3⟩ := C64_move S h v _ _ _ _ _ d e.wf rv hs (pos v d) (by rw [hl]; exact p2.2.2)
      (e.overlap hw hv ho rv ro p1.2.1 p1.2.2 p2.2.2 hov)
    rw [hl] at h1
    exact ⟨r, h', e1, wpV_pure ⟨_, ⟨rfl, congrArg Ans.pos h1.diff⟩, e.step hv h2 h3⟩⟩
  | copyBackward j a b i d =>
    obtain ⟨p1, p2, hov⟩ := hpre
    obtain ⟨o, ho, ro, hs⟩ := e.source hw p1
    obtain ⟨v, hv, rv, _⟩ := e.source hw p2
    have hl := slice_length (Op.at' ls j) (a := a) p1.2.2
    refine wpV_withVec ho (wpV_withVec hv ?_)
    rw [wpV_bind]
    obtain ⟨r, h', e1, h1, h2, h3⟩ := C64_copy_backward_partial S h v _ _ _ _ _ d e.wf rv hs (by rw [hl]; exact pos v (d + (b - a)))
      (by rw [hl]; exact p2.2.2) (e.overlapB hw hv ho rv ro p1.2.1 p1.2.2 p2.2.2 hov)
      (by
        refine hlim.imp (fun hc hx => hc ?_) id
        obtain ⟨x1, x2, x3⟩ := hx
        unfold Call.it at x1 x2 x3
        rw [(pos o b).eq hw, (pos v (d + (b - a))).eq hw] at x2
        rw [(pos o a).eq hw, (pos o b).eq hw] at x3
        dsimp only at x2 x3
        exact ⟨(pos o a).pos_zero.1 x1, x2, by omega⟩)
    exact ⟨r, h', e1, wpV_pure ⟨_, ⟨rfl, congrArg Ans.pos h1.diff⟩, e.step hv h2 h3⟩⟩
  | fill i a b x =>
    obtain ⟨v, hv, rv, _⟩ := e.source hw hpre
    refine wpV_withVec hv ?_
    rw [wpV_bind]
    obtain ⟨h', e1, h2, h3⟩ := C64_fill S h v _ _ _ a b x e.wf rv (pos v a) (pos v b) hpre.2.1 hpre.2.2
    exact ⟨(), h', e1, wpV_pure ⟨_, ⟨rfl, rfl⟩, e.step hv h2 h3⟩⟩
  | reverse i a b =>
    obtain ⟨v, hv, rv, _⟩ := e.source hw hpre
    refine wpV_withVec hv ?_
    rw [wpV_bind]
    obtain ⟨h', e1, h2, h3⟩ := C64_reverse_partial hw S h v _ _ _ a b e.wf rv (pos v a) (pos v b) hpre.2.1 hpre.2.2 hlim
    exact ⟨(), h', e1, wpV_pure ⟨_, ⟨rfl, rfl⟩, e.step hv h2 h3⟩⟩
  | rotate i a k b =>
    obtain ⟨p1, h1, h2⟩ := hpre
    obtain ⟨v, hv, rv, _⟩ := e.source hw p1
    refine wpV_withVec hv ?_
    rw [wpV_bind]
    obtain ⟨r, h', e1, h3, h4, h5⟩ := C64_rotate_partial S h v _ _ _ _ a k b e.wf rv (pos v a) (pos v k) (pos v b) h1 hlim.1 p1.2.2 hlim.2
    exact ⟨r, h', e1, wpV_pure ⟨_, ⟨rfl, congrArg Ans.pos h3.diff⟩, e.step hv h4 h5⟩⟩
  | shiftLeft i a b n =>
    obtain ⟨v, hv, rv, hs⟩ := e.source hw hpre
    obtain ⟨hi, hab, hb⟩ := hpre
    have q1 := (pos v a).2
    have q2 := (pos v b).2
    refine wpV_withVec hv ?_
    rw [wpV_bind]
    by_cases hc : 0 < n ∧ a + n < b
    · obtain ⟨r, h', e1, h1, h2, h4⟩ := C64_shift_left_partial S h v _ _ _ a b n e.wf rv (pos v a) (pos v b) hc.1 hc.2 hb
        (hlim.imp (fun hx hy => hx ⟨hy.1, hy.2, by omega, by omega⟩) id)
      refine ⟨r, h', e1, wpV_pure ⟨_, ?_, e.step hv h2 h4⟩⟩
      simp only [Call.Spec]
      rw [if_pos hc]
      exact ⟨trivial, congrArg Ans.pos h1.diff⟩
    · by_cases h0 : n = 0
      · have e1 := C16_shift_left_nonpos S h.mem (Call.it v a) (Call.it v b) (n : Int) hs.range (by omega)
        refine ⟨Call.it v b, h, by unfold onMem; rw [e1], wpV_pure ⟨ls, ?_, e⟩⟩
        simp only [Call.Spec]
        rw [if_neg hc, if_pos h0]
        exact ⟨trivial, congrArg Ans.pos (pos v b).diff⟩
      · have e1 := C16_shift_left_all S h.mem (Call.it v a) (Call.it v b) (n : Int) hs.range (by omega)
          (by rw [hs.lenEq, slice_length _ hb]; omega)
        refine ⟨Call.it v a, h, by unfold onMem; rw [e1], wpV_pure ⟨ls, ?_, e⟩⟩
        simp only [Call.Spec]
        rw [if_neg hc, if_neg h0]
        exact ⟨trivial, congrArg Ans.pos (pos v a).diff⟩
  | shiftRight i a b n =>
    obtain ⟨v, hv, rv, hs⟩ := e.source hw hpre
    obtain ⟨hi, hab, hb⟩ := hpre
    refine wpV_withVec hv ?_
    rw [wpV_bind]
    by_cases hc : 0 < n ∧ a + n < b
    · obtain ⟨r, h', e1, h1, h2, h4⟩ := C64_shift_right_partial S h v _ _ _ a b n e.wf rv (pos v a) (pos v b) hc.1 hc.2 hb
        (hlim.imp (fun hx hy => hx ⟨hy.1, hy.2, by omega, by omega⟩) id)
      refine ⟨r, h', e1, wpV_pure ⟨_, ?_, e.step hv h2 h4⟩⟩
      simp only [Call.Spec]
      rw [if_pos hc]
      exact ⟨trivial, congrArg Ans.pos h1.diff⟩
    · by_cases h0 : n = 0
      · have e1 := C17_shift_right_nonpos S h.mem (Call.it v a) (Call.it v b) (n : Int) hs.range (by omega)
        refine ⟨Call.it v a, h, by unfold onMem; rw [e1], wpV_pure ⟨ls, ?_, e⟩⟩
        simp only [Call.Spec]
        rw [if_neg hc, if_pos h0]
        exact ⟨trivial, congrArg Ans.pos (pos v a).diff⟩
      · have e1 := C17_shift_right_all S h.mem (Call.it v a) (Call.it v b) (n : Int) hs.range (by omega)
          (by rw [hs.lenEq, slice_length _ hb]; omega)
        refine ⟨Call.it v b, h, by unfold onMem; rw [e1], wpV_pure ⟨ls, ?_, e⟩⟩
        simp only [Call.Spec]
        rw [if_neg hc, if_neg h0]
        exact ⟨trivial, congrArg Ans.pos (pos v b).diff⟩
  | swapRanges i a b j k =>
    obtain ⟨p1, p2, hdis⟩ := hpre
    obtain ⟨v, hv, rv, hs⟩ := e.source hw p1
    obtain ⟨o, ho, ro, _⟩ := e.source hw p2
    refine wpV_withVec hv (wpV_withVec ho ?_)
    rw [wpV_bind]
    by_cases hij : i = j
    · subst hij
      rw [hv] at ho
      cases ho
      obtain ⟨r, h', e1, h1, h2, h3⟩ := C64_swap_ranges_same S h v _ _ _ _ a b k e.wf rv (pos v a) (pos v b) (pos v k) p1.2.1 p1.2.2 p2.2.2
        (hdis rfl)
      refine ⟨r, h', e1, wpV_pure ⟨_, ⟨rfl, congrArg Ans.pos h1.diff⟩, ?_⟩⟩
      have hi := p1.1
      dsimp only
      rw [show Op.at' (ls.set i (splice (Op.at' ls i) a (slice (Op.at' ls i) k (k + (b - a))))) i =
        splice (Op.at' ls i) a (slice (Op.at' ls i) k (k + (b - a))) by
          show (_)[i]?.getD _ = _
          rw [List.getElem?_set, if_pos rfl, if_pos hi]; rfl, List.set_set]
      exact e.step hv h2 h3
    · obtain ⟨r, m', e1, h1, h2, h3, h4, h5⟩ := C64_swap_ranges S h v o _ _ _ _ _ a b k rv ro (e.sep i j v o hv ho hij) (pos v a) (pos v b) (pos o k)
        p1.2.1 p1.2.2 p2.2.2
      refine ⟨r, _, e1, wpV_pure ⟨_, ⟨rfl, congrArg Ans.pos h1.diff⟩, ?_⟩⟩
      dsimp only
      rw [show Op.at' (ls.set i (splice (Op.at' ls i) a (slice (Op.at' ls j) k (k + (b - a))))) j = Op.at' ls j by
          show (_)[j]?.getD _ = (_)[j]?.getD _
          rw [List.getElem?_set, if_neg hij]]
      have f1 := rv.fitInt
      have f2 := ro.fitInt
      have q1 := (pos v a).2
      have q2 := (pos v b).2
      have q3 := (pos o k).2
      have q4 := h1.2
      have q5 := p1.2
      have q6 := p2.2
      refine e.step2 hv ho h4 (fun x x1 x2 => h5 x ?_ ?_) h2 h3
      · omega
      · omega
  | transform op f j a b i d =>
    obtain ⟨hop, p1, p2, hov⟩ := hpre
    obtain ⟨o, ho, ro, hs⟩ := e.source hw p1
    obtain ⟨v, hv, rv, _⟩ := e.source hw p2
    have hl := slice_length (Op.at' ls j) (a := a) p1.2.2
    refine wpV_withVec ho (wpV_withVec hv ?_)
    rw [wpV_bind]
    obtain ⟨r, h', e1, h1, h2, h3⟩ := C64_transform S op f hop h v _ _ _ _ _ d e.wf rv hs (pos v d) (by rw [hl]; exact p2.2.2)
      (e.overlap hw hv ho rv ro p1.2.1 p1.2.2 p2.2.2 hov)
    rw [hl] at h1
    exact ⟨r, h', e1, wpV_pure ⟨_, ⟨rfl, congrArg Ans.pos h1.diff⟩, e.step hv h2 h3⟩⟩
  | transform2 op f j a b j2 c i d =>
    obtain ⟨hop, p1, p3, p2, hov, hov2⟩ := hpre
    obtain ⟨o, ho, ro, hs⟩ := e.source hw p1
    obtain ⟨o2, ho2, ro2, hs2⟩ := e.source hw p3
    obtain ⟨v, hv, rv, _⟩ := e.source hw p2
    have hl := slice_length (Op.at' ls j) (a := a) p1.2.2
    have hl2 := slice_length (Op.at' ls j2) (a := c) p3.2.2
    refine wpV_withVec ho (wpV_withVec ho2 (wpV_withVec hv ?_))
    rw [wpV_bind]
    obtain ⟨r, h', e1, h1, h2, h3⟩ := C64_transform2 S op f hop h v _ _ _ _ _ _ _ _ d e.wf rv hs hs2 (by omega) (pos v d) (by rw [hl]; exact p2.2.2)
      (e.overlap hw hv ho rv ro p1.2.1 p1.2.2 p2.2.2 hov)
      (e.overlap hw hv ho2 rv ro2 p3.2.1 p3.2.2 (by have := p2.2.2; omega) hov2)
    rw [hl] at h1
    exact ⟨r, h', e1, wpV_pure ⟨_, ⟨rfl, congrArg Ans.pos h1.diff⟩, e.step hv h2 h3⟩⟩
  | find i a b x =>
    obtain ⟨v, hv, rv, _⟩ := e.source hw hpre
    refine wpV_withVec hv ?_
    rw [wpV_bind]
    obtain ⟨r, e1, h1⟩ := C64_find S h v _ _ _ a b x rv (pos v a) (pos v b) hpre.2.1 hpre.2.2
    exact ⟨r, h, e1, wpV_pure ⟨ls, ⟨rfl, congrArg Ans.pos h1.diff⟩, e⟩⟩
  | count i a b x =>
    obtain ⟨v, hv, rv, _⟩ := e.source hw hpre
    refine wpV_withVec hv ?_
    rw [wpV_bind]
    have e1 := C64_count_partial S h v _ _ _ a b x rv (pos v a) (pos v b) hpre.2.1 hpre.2.2 (by
      right
      have f := rv.fit
      rw [rv.len] at f
      rcases hlim with hc | hc
      · omega
      · have h1 := hpre.2
        have : (Op.at' ls i).length ≠ v.vec.size * w := fun hx => hc (by rw [hx]; exact Nat.mul_mod_left _ _)
        omega)
    exact ⟨_, h, e1, wpV_pure ⟨ls, ⟨rfl, rfl⟩, e⟩⟩
  | equal i a b j c =>
    obtain ⟨p1, p2⟩ := hpre
    obtain ⟨v, hv, rv, hs⟩ := e.source hw p1
    obtain ⟨o, ho, ro, hs2⟩ := e.source hw p2
    have hl := slice_length (Op.at' ls i) (a := a) p1.2.2
    have hl2 := slice_length (Op.at' ls j) (a := c) p2.2.2
    refine wpV_withVec hv (wpV_withVec ho ?_)
    rw [wpV_bind]
    have e1 := C64_equal S h _ _ _ _ _ _ hs hs2 (by omega)
    exact ⟨_, h, e1, wpV_pure ⟨ls, ⟨rfl, rfl⟩, e⟩⟩
  | size i =>
    obtain ⟨v, hv, _, rv⟩ := e.get hpre
    refine wpV_withVec hv (wpV_pure ⟨ls, ⟨rfl, ?_⟩, e⟩)
    show Ans.num (v.length : Int) = _
    rw [rv.len]
  | get i k =>
    obtain ⟨v, hv, _, rv⟩ := e.get hpre.1
    refine wpV_withVec hv ?_
    rw [wpV_bind]
    have e1 := (C36_contents hw S h _ _ rv).2.2.1 k hpre.2
    refine ⟨_, h, e1, wpV_pure ⟨ls, ⟨rfl, ?_⟩, e⟩⟩
    dsimp only
    rw [List.getElem?_eq_getElem hpre.2]; rfl
  | debugString i =>
    obtain ⟨v, hv, _, rv⟩ := e.get hpre
    refine wpV_withVec hv ?_
    rw [wpV_bind]
    have e1 := C37_debug_string_partial hw S h v _ rv hlim
    exact ⟨_, h, e1, wpV_pure ⟨ls, ⟨rfl, rfl⟩, e⟩⟩

/-! ### Programs -/

/-- Running a program: the vectors and the answers, in order. -/
def runCalls (S : ShiftSem w) (P : Policy) (vs : List BV) : List (Call w) → V w (List BV × List Ans)
  | [] => pure (vs, [])
  | c :: cs => c.exec S P vs >>= fun r => runCalls S P r.1 cs >>= fun q => pure (q.1, r.2 :: q.2)

/-- A program on plain lists. -/
inductive SpecRun : List (List Bool) → List (Call w) → List (List Bool) → List Ans → Prop
  | nil (ls : List (List Bool)) : SpecRun ls [] ls []
  | cons {ls ls1 ls2 : List (List Bool)} {c : Call w} {cs : List (Call w)} {a : Ans} {as : List Ans} :
    c.Spec ls ls1 a → SpecRun ls1 cs ls2 as → SpecRun ls (c :: cs) ls2 (a :: as)

/-- Every call satisfies `R` in every state in which, according to the specification, it can be made. -/
def AlongC (R : List (List Bool) → Call w → Prop) : List (Call w) → List (List Bool) → Prop
  | [], _ => True
  | c :: cs, ls => R ls c ∧ ∀ ls' a, c.Spec ls ls' a → AlongC R cs ls'

/-- C65: a program of valid calls within the limits runs without undefined behaviour, and everything it observes is what the same calls
give on plain lists. -/
theorem C65_program_partial (hw : 0 < w) (S : ShiftSem w) (P : Policy) (h : Heap w) (vs : List BV) (ls : List (List Bool)) (cs : List (Call w))
    (e : EnvOk h vs ls) (hv : AlongC (fun ls c => c.Pre ls ∧ c.Lim S ls) cs ls) :
    ∃ vs' as h' ls', runCalls S P vs cs h = .ok ((vs', as), h') ∧ SpecRun ls cs ls' as ∧ EnvOk h' vs' ls' := by
  induction cs generalizing h vs ls with
  | nil => exact ⟨vs, [], h, ls, rfl, .nil ls, e⟩
  | cons c cs ih =>
    obtain ⟨vs1, a, h1, ls1, e1, s1, ok1⟩ := C65_step_partial hw S P h vs ls c e hv.1.1 hv.1.2
    obtain ⟨vs2, as, h2, ls2, e2, s2, ok2⟩ := ih h1 vs1 ls1 ok1 (hv.2 ls1 a s1)
    refine ⟨vs2, a :: as, h2, ls2, ?_, .cons s1 s2, ok2⟩
    show (Except.bind (c.exec S P vs h) fun p => _) = _
    rw [e1]
    show (Except.bind (runCalls S P vs1 cs h1) fun p => _) = _
    rw [e2]
    rfl

/-- A call has exactly one result on plain lists. -/
theorem Call.Spec.unique {ls l1 l2 : List (List Bool)} {c : Call w} {a1 a2 : Ans} (h1 : c.Spec ls l1 a1) (h2 : c.Spec ls l2 a2) :
    l1 = l2 ∧ a1 = a2 := by
  have key : ∀ {L : List (List Bool)} {A : Ans}, (l1 = L ∧ a1 = A) → (l2 = L ∧ a2 = A) → l1 = l2 ∧ a1 = a2 := by
    rintro L A ⟨rfl, rfl⟩ ⟨rfl, rfl⟩; exact ⟨rfl, rfl⟩
  cases c <;> simp only [Call.Spec] at h1 h2 <;> first | exact key h1 h2 | (split_ifs at h1 h2 <;> exact key h1 h2)

theorem SpecRun.unique {ls l1 l2 : List (List Bool)} {cs : List (Call w)} {a1 a2 : List Ans} (h1 : SpecRun ls cs l1 a1)
    (h2 : SpecRun ls cs l2 a2) : l1 = l2 ∧ a1 = a2 := by
  induction h1 generalizing l2 a2 with
  | nil ls => cases h2; exact ⟨rfl, rfl⟩
  | cons s _ ih =>
    cases h2 with
    | cons s2 r2 =>
      obtain ⟨rfl, rfl⟩ := s.unique s2
      obtain ⟨rfl, rfl⟩ := ih r2
      exact ⟨rfl, rfl⟩

/-- C65: what a program observes, and the elements of its vectors at the end, do not depend on how the compiler treats shifts by a whole
word, on the growth policy of `std::vector`, on where the vectors lie, on their spare capacity, nor on bits outside their elements. -/
theorem C65_observations_partial (hw : 0 < w) (S S2 : ShiftSem w) (P P2 : Policy) (h h2 : Heap w) (vs vs2 : List BV) (ls : List (List Bool))
    (cs : List (Call w)) (e : EnvOk h vs ls) (e2 : EnvOk h2 vs2 ls) (hv : AlongC (fun ls c => c.Pre ls ∧ c.Lim S ls) cs ls)
    (hv2 : AlongC (fun ls c => c.Pre ls ∧ c.Lim S2 ls) cs ls) :
    ∃ vs' h' vs2' h2' as ls', runCalls S P vs cs h = .ok ((vs', as), h') ∧ runCalls S2 P2 vs2 cs h2 = .ok ((vs2', as), h2') ∧
      EnvOk h' vs' ls' ∧ EnvOk h2' vs2' ls' := by
  obtain ⟨vs', as, h', ls', r1, s1, k1⟩ := C65_program_partial hw S P h vs ls cs e hv
  obtain ⟨vs2', as2, h2', ls2', r2, s2, k2⟩ := C65_program_partial hw S2 P2 h2 vs2 ls cs e2 hv2
  obtain ⟨rfl, rfl⟩ := s1.unique s2
  exact ⟨vs', h', vs2', h2', as, ls', r1, r2, k1, k2⟩

/-- A program on two vectors. -/
def twoVecs : List (Call 8) := [.swapRanges 0 6 11 1 1, .copy 1 0 4 0 7, .shiftLeft 0 0 11 5, .count 0 0 6 true, .get 0 10]

theorem twoVecs_valid (S : ShiftSem 8) : AlongC (fun ls c => c.Pre ls ∧ c.Lim S ls) twoVecs
    [exL, [true, true, true, true, false, false]] := by
  refine ⟨⟨⟨⟨by decide, by decide, by decide⟩, ⟨by decide, by decide, by decide⟩, by decide⟩, trivial⟩, ?_⟩
  rintro _ _ ⟨rfl, rfl⟩
  refine ⟨⟨⟨⟨by decide, by decide, by decide⟩, ⟨by decide, by decide, by decide⟩, by decide⟩, trivial⟩, ?_⟩
  rintro _ _ ⟨rfl, rfl⟩
  refine ⟨⟨⟨by decide, by decide, by decide⟩, .inl (by decide)⟩, ?_⟩
  rintro _ _ ⟨rfl, rfl⟩
  refine ⟨⟨⟨by decide, by decide, by decide⟩, .inl (by decide)⟩, ?_⟩
  rintro _ _ ⟨rfl, rfl⟩
  exact ⟨⟨⟨by decide, by decide⟩, trivial⟩, fun _ _ _ => trivial⟩

example (S S2 : ShiftSem 8) : AlongC (fun ls c => c.Pre ls ∧ c.Lim S ls) twoVecs [exL, [true, true, true, true, false, false]] ∧
    AlongC (fun ls c => c.Pre ls ∧ c.Lim S2 ls) twoVecs [exL, [true, true, true, true, false, false]] := ⟨twoVecs_valid S, twoVecs_valid S2⟩

/-! ### The example program of the repository -/

/-- example/src/example1.cpp:5-26, `main`: the calls in order, `debug_string` where the program prints it. -/
def example1 : List (Call 8) :=
  [.vec (.newString "011111010010".toList), .debugString 0, .reverse 0 0 12, .debugString 0, .rotate 0 0 3 12, .debugString 0,
    .vec (.push 0 false), .vec (.insertN 0 13 10 true), .debugString 0]

theorem example1_valid (S : ShiftSem 8) : AlongC (fun ls c => c.Pre ls ∧ c.Lim S ls) example1 [] := by
  have lim : ∀ n : Nat, n < 100 → n < 2 ^ 31 ∧ n ≤ 2 ^ 24 := fun n hn => by omega
  refine ⟨⟨trivial, trivial, .inl trivial⟩, ?_⟩
  rintro _ _ ⟨rfl, rfl⟩
  refine ⟨⟨by show _ < _; decide, (lim _ (by decide)).1⟩, ?_⟩
  rintro _ _ ⟨rfl, rfl⟩
  refine ⟨⟨⟨by decide, by decide, by decide⟩, .inl (by decide)⟩, ?_⟩
  rintro _ _ ⟨rfl, rfl⟩
  refine ⟨⟨by show _ < _; decide, (lim _ (by decide)).1⟩, ?_⟩
  rintro _ _ ⟨rfl, rfl⟩
  refine ⟨⟨⟨⟨by decide, by decide, by decide⟩, by decide, by decide⟩, by decide, RotFits.of_len (by decide)⟩, ?_⟩
  rintro _ _ ⟨rfl, rfl⟩
  refine ⟨⟨by show _ < _; decide, (lim _ (by decide)).1⟩, ?_⟩
  rintro _ _ ⟨rfl, rfl⟩
  refine ⟨⟨by show _ < _; decide, trivial, .inl trivial⟩, ?_⟩
  rintro _ _ ⟨rfl, rfl⟩
  refine ⟨⟨⟨by decide, by decide⟩, (lim _ (by decide)).2, .inl (by show ¬ _; decide)⟩, ?_⟩
  rintro _ _ ⟨rfl, rfl⟩
  refine ⟨⟨by show _ < _; decide, (lim _ (by decide)).1⟩, fun _ _ _ => trivial⟩

/-- C66: the example program runs without undefined behaviour and prints what its comments say, whatever the allocator does and whichever
way the compiler treats shifts by a whole word. -/
theorem C66_example1 (S : ShiftSem 8) (P : Policy) :
    ∃ vs' h', runCalls S P [] example1 (emptyHeap : Heap 8) = .ok ((vs', [.unit, .text "01111101 0010".toList, .unit, .text "01001011 1110".toList,
      .pos 9, .text "01011111 0010".toList, .unit, .unit, .text "01011111 00100111 1111111".toList]), h') := by
  obtain ⟨vs', as, h', ls', e, s, _⟩ := C65_program_partial (by decide) S P emptyHeap [] [] example1 (EnvOk.nil emptyHeap_wf) (example1_valid S)
  refine ⟨vs', h', ?_⟩
  rw [e]
  suffices hh : as = [.unit, .text "01111101 0010".toList, .unit, .text "01001011 1110".toList,
      .pos 9, .text "01011111 0010".toList, .unit, .unit, .text "01011111 00100111 1111111".toList] by rw [hh]
  unfold example1 at s
  rcases s with _ | ⟨⟨rfl, rfl⟩, s⟩
  rcases s with _ | ⟨⟨rfl, rfl⟩, s⟩
  rcases s with _ | ⟨⟨rfl, rfl⟩, s⟩
  rcases s with _ | ⟨⟨rfl, rfl⟩, s⟩
  rcases s with _ | ⟨⟨rfl, rfl⟩, s⟩
  rcases s with _ | ⟨⟨rfl, rfl⟩, s⟩
  rcases s with _ | ⟨⟨rfl, rfl⟩, s⟩
  rcases s with _ | ⟨⟨rfl, rfl⟩, s⟩
  rcases s with _ | ⟨⟨rfl, rfl⟩, s⟩
  cases s
  decide

end BitLib
