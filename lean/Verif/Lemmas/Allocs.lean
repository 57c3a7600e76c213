import Verif.SpecAllocs
import Verif.Lemmas.Keep
/-
Lemmas for C92.
-/
namespace BitLib
namespace Allocs
variable {w : Nat} {α β : Type}

/-! ### Runs -/

/-- The run ends well, in a result with `Q`. -/
def wpA (x : AV w α) (s : Heap w × Ledger) (Q : α → Heap w × Ledger → Prop) : Prop := ∃ a s', x s = .ok (a, s') ∧ Q a s'

theorem wpA_pure {a : α} {s : Heap w × Ledger} {Q : α → Heap w × Ledger → Prop} (hq : Q a s) : wpA (pure a) s Q := ⟨a, s, rfl, hq⟩

theorem runA_bind {x : AV w α} {f : α → AV w β} {s s' : Heap w × Ledger} {a : α} (hx : x s = .ok (a, s')) : (x >>= f) s = f a s' := by
  show (Except.bind (x s) fun q => _) = _
  rw [hx]; rfl

theorem wpA_bind {x : AV w α} {f : α → AV w β} {s : Heap w × Ledger} {Q : β → Heap w × Ledger → Prop}
    (hx : wpA x s fun a s' => wpA (f a) s' Q) : wpA (x >>= f) s Q := by
  obtain ⟨a, s1, e1, b, s2, e2, q⟩ := hx
  exact ⟨b, s2, by rw [runA_bind e1, e2], q⟩

theorem wpA_mono {x : AV w α} {s : Heap w × Ledger} {Q R : α → Heap w × Ledger → Prop} (hx : wpA x s Q) (hqr : ∀ a s', Q a s' → R a s') :
    wpA x s R := by
  obtain ⟨a, s1, e1, q⟩ := hx
  exact ⟨a, s1, e1, hqr _ _ q⟩

theorem wpA_heap {p : V w α} {s : Heap w × Ledger} {Q : α → Heap w × Ledger → Prop} (hp : wpV p s.1 fun a h' => Q a (h', s.2)) :
    wpA (inHeap p) s Q := by
  obtain ⟨a, h', e, q⟩ := hp
  refine ⟨a, (h', s.2), ?_, q⟩
  unfold inHeap
  rw [e]

theorem inHeap_inv {p : V w α} {s s' : Heap w × Ledger} {a : α} (he : inHeap p s = .ok (a, s')) : p s.1 = .ok (a, s'.1) ∧ s'.2 = s.2 := by
  unfold inHeap at he
  cases hp : p s.1 with
  | error e => rw [hp] at he; cases he
  | ok r => rw [hp] at he; cases he; exact ⟨rfl, rfl⟩

/-! ### Requests -/

theorem asked_refl {led : Ledger} {src : List Nat} : AskedOnly led led src := ⟨[], rfl, by simp⟩

theorem asked_same {led led' : Ledger} {src : List Nat} (h : led'.asked = led.asked) : AskedOnly led led' src := ⟨[], by rw [h]; rfl, by simp⟩

theorem asked_trans {l1 l2 l3 : Ledger} {src : List Nat} (h1 : AskedOnly l1 l2 src) (h2 : AskedOnly l2 l3 src) : AskedOnly l1 l3 src := by
  obtain ⟨n1, e1, m1⟩ := h1
  obtain ⟨n2, e2, m2⟩ := h2
  refine ⟨n2 ++ n1, by rw [e2, e1, List.append_assoc], ?_⟩
  intro r hr
  rcases List.mem_append.1 hr with h | h
  · exact m2 r h
  · exact m1 r h

theorem asked_mono {l1 l2 : Ledger} {src src' : List Nat} (h : AskedOnly l1 l2 src) (hs : ∀ a ∈ src, a ∈ src') : AskedOnly l1 l2 src' := by
  obtain ⟨n, e, m⟩ := h
  exact ⟨n, e, fun r hr => hs _ (m r hr)⟩

/-! ### The ledger -/

/-- No two vectors have storage at the same address. -/
def Apart (xs : List AB) : Prop :=
  ∀ (i j : Nat) (x y : AB), i ≠ j → xs[i]? = some x → xs[j]? = some y → 0 < x.bv.vec.cap → 0 < y.bv.vec.cap → x.bv.vec.ptr ≠ y.bv.vec.ptr

theorem map_get {xs : List AB} {i : Nat} {x : AB} (h : xs[i]? = some x) : (xs.map AB.bv)[i]? = some x.bv := by
  rw [List.getElem?_map, h]; rfl

theorem apart_of (hw : 0 < w) {h : Heap w} {xs : List AB} {ls : List (List Bool)} (e : EnvOk h (xs.map AB.bv) ls) : Apart xs := by
  intro i j x y hij hx hy cx cy hp
  have hwi : (0 : Int) < (w : Int) := by omega
  have h1 : (0 : Int) < (x.bv.vec.cap : Int) * (w : Int) := Int.mul_pos (by omega) hwi
  have h2 : (0 : Int) < (y.bv.vec.cap : Int) * (w : Int) := Int.mul_pos (by omega) hwi
  rcases e.sep i j _ _ (map_get hx) (map_get hy) hij with h | h | h | h
  · omega
  · omega
  · rw [hp] at h; omega
  · rw [hp] at h; omega

theorem get_set {α : Type} {xs : List α} {i : Nat} {x y : α} (h : xs[i]? = some x) : (xs.set i y)[i]? = some y := by
  rw [List.getElem?_set, if_pos rfl, if_pos (List.getElem?_eq_some_iff.1 h).1]

theorem give_zero {a : Nat} {v : Vec} {s : Heap w × Ledger} (hc : v.cap = 0) : give a v s = .ok ((), s) := by
  unfold give
  rw [if_pos hc]

theorem give_pos {a : Nat} {v : Vec} {s : Heap w × Ledger} (hc : ¬ v.cap = 0) (hl : s.2.lent v.ptr = some (a, v.cap)) :
    give a v s = .ok ((), (s.1, ⟨fun p => if p = v.ptr then none else s.2.lent p, s.2.asked⟩)) := by
  unfold give
  rw [if_neg hc, if_pos hl]

theorem take_zero {a : Nat} {v : Vec} {s : Heap w × Ledger} (hc : v.cap = 0) : take a v s = .ok ((), s) := by
  unfold take
  rw [if_pos hc]

theorem take_pos {a : Nat} {v : Vec} {s : Heap w × Ledger} (hc : ¬ v.cap = 0) :
    take a v s = .ok ((), (s.1, ⟨fun p => if p = v.ptr then some (a, v.cap) else s.2.lent p, (a, v.cap) :: s.2.asked⟩)) := by
  unfold take
  rw [if_neg hc]

/-- A block is given back. -/
theorem give_ok {s : Heap w × Ledger} {xs : List AB} {i : Nat} {x : AB} (ok : LedgerOk s.2 xs) (hx : xs[i]? = some x) (ap : Apart xs) :
    wpA (give x.al x.bv.vec) s fun _ s' => s'.1 = s.1 ∧ s'.2.asked = s.2.asked ∧ ∀ y : AB, y.bv.vec.cap = 0 → LedgerOk s'.2 (xs.set i y) := by
  by_cases hc : x.bv.vec.cap = 0
  · refine ⟨(), s, give_zero hc, rfl, rfl, ?_⟩
    intro y hy p a c
    rw [ok p a c]
    refine and_congr_right fun h0 => ?_
    constructor
    · rintro ⟨k, z, hz, h1, h2, h3⟩
      refine ⟨k, z, ?_, h1, h2, h3⟩
      rw [List.getElem?_set]
      split_ifs with hk hl
      · subst hk; rw [hx] at hz; cases hz; omega
      · subst hk; rw [hx] at hz; cases hz; omega
      · exact hz
    · rintro ⟨k, z, hz, h1, h2, h3⟩
      rw [List.getElem?_set] at hz
      split_ifs at hz with hk hl
      · cases hz; omega
      · exact ⟨k, z, hz, h1, h2, h3⟩
  · have hl : s.2.lent x.bv.vec.ptr = some (x.al, x.bv.vec.cap) := (ok _ _ _).2 ⟨by omega, i, x, hx, rfl, rfl, rfl⟩
    refine ⟨(), _, give_pos hc hl, rfl, rfl, ?_⟩
    intro y hy p a c
    dsimp only
    by_cases hp : p = x.bv.vec.ptr
    · rw [if_pos hp]
      refine ⟨fun h => (by cases h), ?_⟩
      rintro ⟨h0, k, z, hz, h1, h2, h3⟩
      rw [List.getElem?_set] at hz
      split_ifs at hz with hk hl'
      · cases hz; omega
      · exact absurd (h2.trans hp).symm (ap i k x z hk hx hz (by omega) (by omega))
    · rw [if_neg hp, ok p a c]
      refine and_congr_right fun h0 => ?_
      constructor
      · rintro ⟨k, z, hz, h1, h2, h3⟩
        refine ⟨k, z, ?_, h1, h2, h3⟩
        rw [List.getElem?_set, if_neg]
        · exact hz
        · rintro rfl
          rw [hx] at hz; cases hz
          exact hp h2.symm
      · rintro ⟨k, z, hz, h1, h2, h3⟩
        rw [List.getElem?_set] at hz
        split_ifs at hz with hk hl'
        · cases hz; omega
        · exact ⟨k, z, hz, h1, h2, h3⟩

/-- A block is taken. -/
theorem take_ok {s : Heap w × Ledger} {xs : List AB} {i : Nat} {x y : AB} (ok : LedgerOk s.2 xs) (hx : xs[i]? = some x) (h0 : x.bv.vec.cap = 0)
    (ap : Apart (xs.set i y)) :
    wpA (take y.al y.bv.vec) s fun _ s' => s'.1 = s.1 ∧ AskedOnly s.2 s'.2 [y.al] ∧ LedgerOk s'.2 (xs.set i y) := by
  have other : ∀ (p : Int) (a c : Nat), 0 < c → (¬ (y.al = a ∧ y.bv.vec.ptr = p ∧ y.bv.vec.cap = c)) →
      (s.2.lent p = some (a, c) ↔ ∃ (k : Nat) (z : AB), (xs.set i y)[k]? = some z ∧ z.al = a ∧ z.bv.vec.ptr = p ∧ z.bv.vec.cap = c) := by
    intro p a c hc hy
    rw [ok p a c]
    constructor
    · rintro ⟨_, k, z, hz, h1, h2, h3⟩
      refine ⟨k, z, ?_, h1, h2, h3⟩
      rw [List.getElem?_set, if_neg]
      · exact hz
      · rintro rfl
        rw [hx] at hz; cases hz
        omega
    · rintro ⟨k, z, hz, h1, h2, h3⟩
      rw [List.getElem?_set] at hz
      split_ifs at hz with hk hl
      · cases hz; exact absurd ⟨h1, h2, h3⟩ hy
      · exact ⟨hc, k, z, hz, h1, h2, h3⟩
  by_cases hc : y.bv.vec.cap = 0
  · refine ⟨(), s, take_zero hc, rfl, asked_refl, ?_⟩
    intro p a c
    by_cases h : 0 < c
    · rw [other p a c h (by omega)]
      exact ⟨fun hh => ⟨h, hh⟩, fun hh => hh.2⟩
    · rw [ok p a c]
      exact ⟨fun hh => absurd hh.1 h, fun hh => absurd hh.1 h⟩
  · refine ⟨(), _, take_pos hc, rfl, ⟨[(y.al, y.bv.vec.cap)], rfl, by simp⟩, ?_⟩
    intro p a c
    dsimp only
    have hy : (xs.set i y)[i]? = some y := get_set hx
    by_cases hp : p = y.bv.vec.ptr
    · rw [if_pos hp]
      constructor
      · intro h
        cases h
        exact ⟨by omega, i, y, hy, rfl, hp.symm, rfl⟩
      · rintro ⟨h, k, z, hz, h1, h2, h3⟩
        by_cases hk : k = i
        · subst hk; rw [hy] at hz; cases hz; rw [h1, h3]
        · exact absurd (h2.trans hp) (ap k i z y hk hz hy (by omega) (by omega))
    · rw [if_neg hp]
      by_cases h : 0 < c
      · rw [other p a c h (fun hh => hp hh.2.1.symm)]
        exact ⟨fun hh => ⟨h, hh⟩, fun hh => hh.2⟩
      · rw [ok p a c]
        exact ⟨fun hh => absurd hh.1 h, fun hh => absurd hh.1 h⟩

/-- Only storage matters. -/
theorem ledger_same {led : Ledger} {xs : List AB} {i : Nat} {x y : AB} (ok : LedgerOk led xs) (hx : xs[i]? = some x) (ha : y.al = x.al)
    (hp : y.bv.vec.ptr = x.bv.vec.ptr) (hc : y.bv.vec.cap = x.bv.vec.cap) : LedgerOk led (xs.set i y) := by
  intro p a c
  rw [ok p a c]
  refine and_congr_right fun h0 => ?_
  constructor
  · rintro ⟨k, z, hz, h1, h2, h3⟩
    by_cases hk : i = k
    · subst hk
      rw [hx] at hz; cases hz
      exact ⟨i, y, get_set hx, ha.trans h1, hp.trans h2, hc.trans h3⟩
    · exact ⟨k, z, by rw [List.getElem?_set, if_neg hk]; exact hz, h1, h2, h3⟩
  · rintro ⟨k, z, hz, h1, h2, h3⟩
    by_cases hk : i = k
    · subst hk
      rw [get_set hx] at hz; cases hz
      exact ⟨i, x, hx, ha.symm.trans h1, hp.symm.trans h2, hc.symm.trans h3⟩
    · rw [List.getElem?_set, if_neg hk] at hz
      exact ⟨k, z, hz, h1, h2, h3⟩

/-- Storage is replaced. -/
theorem settle_ok {s : Heap w × Ledger} {xs : List AB} {i : Nat} {x y : AB} (ok : LedgerOk s.2 xs) (hx : xs[i]? = some x) (ap : Apart xs)
    (ha : y.al = x.al) (ap' : Apart (xs.set i y)) :
    wpA (settle x.al x.bv.vec y.bv.vec) s fun _ s' => s'.1 = s.1 ∧ AskedOnly s.2 s'.2 [x.al] ∧ LedgerOk s'.2 (xs.set i y) := by
  unfold settle
  split_ifs with hc
  · exact wpA_pure ⟨rfl, asked_refl, ledger_same ok hx ha hc.1 hc.2⟩
  · refine wpA_bind (wpA_mono (give_ok ok hx ap) ?_)
    rintro _ s1 ⟨h1, h2, h3⟩
    have ok1 := h3 ⟨x.al, BV.default⟩ rfl
    have ap1 : Apart ((xs.set i ⟨x.al, BV.default⟩).set i y) := by rw [List.set_set]; exact ap'
    rw [← ha]
    refine wpA_mono (take_ok ok1 (get_set hx) rfl ap1) ?_
    rintro _ s2 ⟨h4, h5, h6⟩
    rw [List.set_set] at h6
    exact ⟨h4.trans h1, asked_trans (asked_same h2) h5, h6⟩

/-- An empty vector at the end does not count. -/
theorem ledger_concat {led : Ledger} {xs : List AB} {x : AB} (hx : x.bv.vec.cap = 0) : LedgerOk led (xs ++ [x]) ↔ LedgerOk led xs := by
  refine forall_congr' fun p => forall_congr' fun a => forall_congr' fun c => iff_congr Iff.rfl (and_congr_right fun h0 => ?_)
  constructor
  · rintro ⟨k, z, hz, h1, h2, h3⟩
    by_cases hk : k < xs.length
    · rw [List.getElem?_append_left hk] at hz
      exact ⟨k, z, hz, h1, h2, h3⟩
    · rw [List.getElem?_append_right (by omega)] at hz
      obtain ⟨hl, hg⟩ := List.getElem?_eq_some_iff.1 hz
      simp at hl
      simp at hg
      subst hg
      omega
  · rintro ⟨k, z, hz, h1, h2, h3⟩
    exact ⟨k, z, by rw [List.getElem?_append_left (List.getElem?_eq_some_iff.1 hz).1]; exact hz, h1, h2, h3⟩

/-! ### Environments -/

variable {s : Heap w × Ledger} {xs : List AB} {ls : List (List Bool)} {as : List Nat}

theorem env_get (e : AEnvOk s xs ls as) {i : Nat} (hi : i < ls.length) :
    ∃ x, xs[i]? = some x ∧ ls[i]? = some (Op.at' ls i) ∧ Rep s.1 x.bv (Op.at' ls i) ∧ as.getD i 0 = x.al ∧ as[i]? = some x.al := by
  obtain ⟨v, h1, h2, r⟩ := e.env.get hi
  rw [List.getElem?_map, Option.map_eq_some_iff] at h1
  obtain ⟨x, hx, rfl⟩ := h1
  have : as[i]? = some x.al := by rw [← e.als, List.getElem?_map, hx]; rfl
  exact ⟨x, hx, h2, r, by rw [List.getD_eq_getElem?_getD, this]; rfl, this⟩

theorem map_set_bv {xs : List AB} {i : Nat} {y : AB} : (xs.set i y).map AB.bv = (xs.map AB.bv).set i y.bv := List.map_set

theorem map_set_al {xs : List AB} {i : Nat} {y : AB} : (xs.set i y).map AB.al = (xs.map AB.al).set i y.al := List.map_set

theorem set_al_same {xs : List AB} {i : Nat} {x y : AB} (hx : xs[i]? = some x) (ha : y.al = x.al) : (xs.set i y).map AB.al = xs.map AB.al := by
  rw [map_set_al]
  refine list_set_self ?_
  rw [List.getElem?_map, hx, Option.map_some, ha]

/-- A member replaced vector `i`. -/
theorem settled (hw : 0 < w) (e : AEnvOk s xs ls as) {i : Nat} {x : AB} (hx : xs[i]? = some x) {v' : BV} {h' : Heap w} {ls' : List (List Bool)}
    (e' : EnvOk h' ((xs.map AB.bv).set i v') ls') {s1 : Heap w × Ledger} (hs : s1 = (h', s.2)) :
    wpA (settle x.al x.bv.vec v'.vec) s1 fun _ s' => AskedOnly s.2 s'.2 [x.al] ∧ AEnvOk s' (xs.set i ⟨x.al, v'⟩) ls' as := by
  subst hs
  have e2 : EnvOk h' ((xs.set i ⟨x.al, v'⟩).map AB.bv) ls' := by rw [map_set_bv]; exact e'
  refine wpA_mono (settle_ok (s := (h', s.2)) (y := ⟨x.al, v'⟩) e.led hx (apart_of hw e.env) rfl (apart_of hw e2)) ?_
  rintro _ s' ⟨h1, h2, h3⟩
  exact ⟨h2, by rw [h1]; exact e2, by rw [set_al_same (y := ⟨x.al, v'⟩) hx rfl]; exact e.als, h3⟩

/-- Add an empty vector. -/
theorem env_empty (e : AEnvOk s xs ls as) (a : Nat) : AEnvOk s (xs ++ [⟨a, BV.default⟩]) (ls ++ [[]]) (as ++ [a]) := by
  refine ⟨?_, by rw [List.map_append, e.als]; rfl, (ledger_concat rfl).2 e.led⟩
  rw [List.map_append]
  exact e.env.push (wpV_default e.env.wf).1 (wpV_default e.env.wf).2

theorem set_concat {α : Type} (l : List α) (x y : α) : (l ++ [x]).set l.length y = l ++ [y] := by simp

theorem get_concat {α : Type} (l : List α) (x : α) : (l ++ [x])[l.length]? = some x := List.getElem?_concat_length

/-- Enter the storage of a new vector. -/
theorem taken (hw : 0 < w) (e : AEnvOk s xs ls as) {a : Nat} {v : BV} {h' : Heap w} {l : List Bool} (st : VStep s.1 Vec.empty h' v.vec)
    (r : Rep h' v l) {s1 : Heap w × Ledger} (hs : s1 = (h', s.2)) :
    wpA (take a v.vec) s1 fun _ s' => AskedOnly s.2 s'.2 [a] ∧ AEnvOk s' (xs ++ [⟨a, v⟩]) (ls ++ [l]) (as ++ [a]) := by
  subst hs
  have e2 : EnvOk h' ((xs ++ [(⟨a, v⟩ : AB)]).map AB.bv) (ls ++ [l]) := by rw [List.map_append]; exact e.env.push st r
  have ap := apart_of hw e2
  have := take_ok (s := (h', s.2)) (xs := xs ++ [⟨a, BV.default⟩]) (i := xs.length) (y := ⟨a, v⟩) ((ledger_concat rfl).2 e.led) (get_concat _ _) rfl
    (by rw [set_concat]; exact ap)
  refine wpA_mono this ?_
  rintro _ s' ⟨h1, h2, h3⟩
  rw [set_concat] at h3
  exact ⟨h2, by rw [h1]; exact e2, by rw [List.map_append, e.als]; rfl, h3⟩

theorem made_ok (hw : 0 < w) (e : AEnvOk s xs ls as) {a : Nat} {p : V w BV} {l : List Bool}
    (hp : wpV p s.1 fun v h' => VStep s.1 Vec.empty h' v.vec ∧ Rep h' v l) :
    wpA (AB.made a p) s fun x s' => AskedOnly s.2 s'.2 [a] ∧ AEnvOk s' (xs ++ [x]) (ls ++ [l]) (as ++ [a]) := by
  unfold AB.made
  refine wpA_bind (wpA_heap (wpV_mono hp ?_))
  rintro v h' ⟨st, r⟩
  refine wpA_bind (wpA_mono (taken hw e st r rfl) ?_)
  rintro _ s' h
  exact wpA_pure h

/-- The last vector goes. -/
theorem env_drop {x : AB} {l : List Bool} {a : Nat} (e : AEnvOk s (xs ++ [x]) (ls ++ [l]) (as ++ [a])) (hx : x.bv.vec.cap = 0) : AEnvOk s xs ls as := by
  have hlen : xs.length = ls.length := by have := e.env.len; simpa using this
  have hl : ∀ (i : Nat) (v : BV), (xs.map AB.bv)[i]? = some v → ((xs ++ [x]).map AB.bv)[i]? = some v := by
    intro i v hv
    rw [List.map_append, List.getElem?_append_left (List.getElem?_eq_some_iff.1 hv).1]
    exact hv
  refine ⟨⟨e.env.wf, by simpa using hlen, ?_, ?_⟩, ?_, (ledger_concat hx).1 e.led⟩
  · intro i v k hv hk
    refine e.env.rep i v k (hl i v hv) ?_
    rw [List.getElem?_append_left (List.getElem?_eq_some_iff.1 hk).1]
    exact hk
  · intro i j v o hv ho hij
    exact e.env.sep i j v o (hl i v hv) (hl j o ho) hij
  · have := e.als
    rw [List.map_append] at this
    exact List.append_inj_left this (by
      have h2 := congrArg List.length this
      simp at h2
      simpa using h2)

/-! ### Members of `bit_vector` -/

theorem pushAll_ok (S : ShiftSem w) (hw : 0 < w) (P : Policy) (l : List Bool) {i : Nat} {x : AB} {l0 : List Bool} (e : AEnvOk s xs ls as)
    (hx : xs[i]? = some x) (hl0 : ls[i]? = some l0) :
    wpA (l.foldlM (fun (x : AB) b => x.member (x.bv.pushBack S P b)) x) s fun y s' =>
      AskedOnly s.2 s'.2 [x.al] ∧ AEnvOk s' (xs.set i y) (ls.set i (l0 ++ l)) as := by
  induction l generalizing s xs ls x l0 with
  | nil =>
    refine wpA_pure ⟨asked_refl, ?_⟩
    rw [list_set_self hx, List.append_nil, list_set_self hl0]
    exact e
  | cons b l ih =>
    rw [List.foldlM_cons]
    refine wpA_bind ?_
    unfold AB.member
    refine wpA_bind (wpA_heap (wpV_push S hw e.env.wf (e.env.rep i _ _ (map_get hx) hl0) ?_))
    intro v' h' st r
    refine wpA_bind (wpA_mono (settled hw e hx (e.env.update (map_get hx) st (.inl rfl) r) rfl) ?_)
    rintro _ s1 ⟨h1, e1⟩
    refine wpA_pure ?_
    refine wpA_mono (ih e1 (get_set hx) (get_set hl0)) ?_
    rintro y s2 ⟨h2, e2⟩
    rw [List.set_set, List.set_set, List.append_assoc] at e2
    exact ⟨asked_trans h1 h2, e2⟩

theorem ofBoolList_ok (S : ShiftSem w) (hw : 0 < w) (P : Policy) (l : List Bool) (a : Nat) (e : AEnvOk s xs ls as) :
    wpA (AB.ofBoolList S P l a) s fun x s' => AskedOnly s.2 s'.2 [a] ∧ AEnvOk s' (xs ++ [x]) (ls ++ [l]) (as ++ [a]) := by
  have e0 := env_empty e a
  have hlen : xs.length = ls.length := by have := e.env.len; simpa using this
  have := pushAll_ok S hw P l (i := xs.length) (x := ⟨a, BV.default⟩) (l0 := []) e0 (get_concat _ _) (by rw [hlen]; exact get_concat _ _)
  refine wpA_mono this ?_
  rintro y s1 ⟨h1, e1⟩
  rw [set_concat, hlen, set_concat, List.nil_append] at e1
  exact ⟨h1, e1⟩

/-- The destructor. -/
theorem destroy_ok (hw : 0 < w) (e : AEnvOk s xs ls as) {i : Nat} {x : AB} (hx : xs[i]? = some x) :
    wpA x.words.destroy s fun _ s' => s'.2.asked = s.2.asked ∧ AEnvOk s' (xs.set i ⟨x.al, BV.default⟩) (ls.set i []) as := by
  unfold AWords.destroy
  refine wpA_bind (wpA_mono (give_ok e.led hx (apart_of hw e.env)) ?_)
  rintro _ s1 ⟨h1, h2, h3⟩
  have st := release_ok hw (v := x.bv.vec) e.env.wf
  refine wpA_heap ⟨(), _, rfl, h2, ?_, ?_, h3 _ rfl⟩
  · rw [map_set_bv, h1]
    exact e.env.update (map_get hx) st (.inr rfl) (wpV_default st.wf).2
  · rw [set_al_same (y := ⟨x.al, BV.default⟩) hx rfl]
    exact e.als

/-- Copy assignment. -/
theorem copyAssign_ok (T : Traits) (hw : 0 < w) (P : Policy) (e : AEnvOk s xs ls as) {i j : Nat} {x o : AB} {l : List Bool} (hx : xs[i]? = some x)
    (ho : xs[j]? = some o) (hl : ls[j]? = some l) :
    wpA (x.copyAssign T P o) s fun y s' => AskedOnly s.2 s'.2 (if T.pocca then [o.al] else [x.al]) ∧
      AEnvOk s' (xs.set i y) (ls.set i l) (if T.pocca then as.set i o.al else as) := by
  have hlen : xs.length = ls.length := by have := e.env.len; simpa using this
  have hi := (List.getElem?_eq_some_iff.1 hx).1
  have rx : Rep s.1 x.bv (Op.at' ls i) := by
    obtain ⟨x', h1, _, r, _⟩ := env_get e (i := i) (by omega)
    rw [hx] at h1; cases h1
    exact r
  have ro := e.env.rep j _ _ (map_get ho) hl
  unfold AB.copyAssign AWords.copyAssign
  by_cases hc : T.pocca = true ∧ x.words.al ≠ o.words.al
  · rw [if_pos hc, if_pos hc.1, if_pos hc.1]
    have hij : i ≠ j := by
      rintro rfl
      rw [hx] at ho; cases ho
      exact hc.2 rfl
    -- the old storage is given back
    refine wpA_bind (wpA_bind (wpA_mono (give_ok e.led hx (apart_of hw e.env)) ?_))
    rintro _ s1 ⟨h1, h2, h3⟩
    have st := release_ok hw (v := x.bv.vec) e.env.wf
    have e1 := e.env.update (map_get hx) st (v' := BV.default) (.inr rfl) (wpV_default st.wf).2
    rw [← h1] at st e1
    refine wpA_bind (wpA_heap ⟨(), _, rfl, ?_⟩)
    dsimp only
    have ho1 : ((xs.map AB.bv).set i BV.default)[j]? = some o.bv := by
      rw [List.getElem?_set, if_neg hij]; exact map_get ho
    have hl1 : (ls.set i [])[j]? = some l := by
      rw [List.getElem?_set, if_neg hij]; exact hl
    have ro1 := e1.rep j _ _ ho1 hl1
    -- the copy
    have hv : wpV (BV.copyOf P o.bv) _ fun v h' => VStep _ Vec.empty h' v.vec ∧ Rep h' v l := wpV_copyOf (P := P) hw e1.wf ro1 fun v h' s r => ⟨s, r⟩
    obtain ⟨v, h', e2, st2, r2⟩ := hv
    obtain ⟨vec, h2', e3, e4⟩ := runV_bind_inv e2
    cases e4
    refine wpA_bind (wpA_heap ⟨vec, h', e3, ?_⟩)
    dsimp only
    have hd : ((xs.map AB.bv).set i BV.default)[i]? = some BV.default := get_set (map_get hx)
    have e5 := e1.update hd (v' := ⟨vec, o.bv.length⟩) st2 (.inl rfl) r2
    rw [List.set_set, List.set_set] at e5
    have e6 : EnvOk h' ((xs.set i ⟨o.al, ⟨vec, o.bv.length⟩⟩).map AB.bv) (ls.set i l) := by rw [map_set_bv]; exact e5
    have ok1 := h3 ⟨x.al, BV.default⟩ rfl
    have tk := take_ok (s := (h', s1.2)) (xs := xs.set i ⟨x.al, BV.default⟩) (i := i) (y := ⟨o.al, ⟨vec, o.bv.length⟩⟩) ok1 (get_set hx) rfl
      (by rw [List.set_set]; exact apart_of hw e6)
    refine wpA_bind (wpA_mono tk ?_)
    rintro _ s3 ⟨h4, h5, h6⟩
    refine wpA_pure (wpA_pure ?_)
    rw [List.set_set] at h6
    exact ⟨asked_trans (asked_same h2) h5, by rw [h4]; exact e6, by rw [map_set_al, e.als]; rfl, h6⟩
  · rw [if_neg hc]
    have hal : (if T.pocca = true then [o.al] else [x.al]) = [x.al] ∧ (if T.pocca = true then as.set i o.al else as) = as := by
      by_cases hp : T.pocca = true
      · have : x.al = o.al := by
          by_contra hne
          exact hc ⟨hp, hne⟩
        rw [if_pos hp, if_pos hp, ← this]
        refine ⟨rfl, list_set_self ?_⟩
        rw [← e.als, List.getElem?_map, hx]; rfl
      · rw [if_neg hp, if_neg hp]
        exact ⟨rfl, rfl⟩
    rw [hal.1, hal.2]
    have hv : wpV (BV.copyAssign P x.bv o.bv) s.1 fun v h' => VStep s.1 x.bv.vec h' v.vec ∧ Rep h' v l := wpV_copyAssign (P := P) hw e.env.wf rx ro fun v h' s r => ⟨s, r⟩
    obtain ⟨v, h', e2, st2, r2⟩ := hv
    obtain ⟨vec, h2', e3, e4⟩ := runV_bind_inv e2
    cases e4
    refine wpA_bind (wpA_bind (wpA_heap ⟨vec, h', e3, ?_⟩))
    refine wpA_bind (wpA_mono (settled hw e hx (v' := ⟨vec, o.bv.length⟩) (e.env.update (map_get hx) st2 (.inl rfl) r2) rfl) ?_)
    rintro _ s1 ⟨h1, e1⟩
    exact wpA_pure (wpA_pure ⟨h1, e1⟩)

/-- Move assignment. -/
theorem moveAssign_ok (T : Traits) (hw : 0 < w) (P : Policy) (e : AEnvOk s xs ls as) {i j : Nat} {x o : AB} {l : List Bool} (hij : i ≠ j)
    (hx : xs[i]? = some x) (ho : xs[j]? = some o) (hl : ls[j]? = some l) :
    wpA (x.moveAssign T P o) s fun r s' => AskedOnly s.2 s'.2 (if T.pocma ∨ x.al = o.al then [] else [x.al]) ∧ r.2.al = o.al ∧
      AEnvOk s' ((xs.set i r.1).set j r.2) ((ls.set i l).set j []) (if T.pocma then as.set i o.al else as) := by
  have hlen : xs.length = ls.length := by have := e.env.len; simpa using this
  have hi := (List.getElem?_eq_some_iff.1 hx).1
  have hj := (List.getElem?_eq_some_iff.1 ho).1
  have rx : Rep s.1 x.bv (Op.at' ls i) := by
    obtain ⟨x', h1, _, r, _⟩ := env_get e (i := i) (by omega)
    rw [hx] at h1; cases h1
    exact r
  have ro := e.env.rep j _ _ (map_get ho) hl
  have hxal : as[i]? = some x.al := by rw [← e.als, List.getElem?_map, hx]; rfl
  have hoal : as[j]? = some o.al := by rw [← e.als, List.getElem?_map, ho]; rfl
  unfold AB.moveAssign AWords.moveAssign
  by_cases hc : T.pocma = true ∨ x.al = o.al
  · rw [if_pos (show T.pocma = true ∨ x.words.al = o.words.al from hc), if_pos hc]
    -- the storage changes hands
    refine wpA_bind (wpA_bind (wpA_mono (give_ok e.led hx (apart_of hw e.env)) ?_))
    rintro _ s1 ⟨h1, h2, h3⟩
    have st := release_ok hw (v := x.bv.vec) e.env.wf
    have e1 := e.env.update (map_get hx) st (v' := BV.default) (.inr rfl) (wpV_default st.wf).2
    rw [← h1] at e1
    refine wpA_bind (wpA_heap ⟨(o.bv.vec, Vec.empty), _, rfl, ?_⟩)
    refine wpA_pure (wpA_pure ⟨asked_same h2, rfl, ?_⟩)
    dsimp only
    -- the new owner
    have hal : (if T.pocma = true then o.words.al else x.words.al) = o.al := by
      by_cases hp : T.pocma = true
      · rw [if_pos hp]; rfl
      · rw [if_neg hp]; exact hc.resolve_left hp
    have has : (if T.pocma = true then as.set i o.al else as) = as.set i o.al := by
      by_cases hp : T.pocma = true
      · rw [if_pos hp]
      · rw [if_neg hp]
        refine (list_set_self ?_).symm
        rw [hxal, hc.resolve_left hp]
    rw [hal, has]
    have ok1 := h3 ⟨x.al, BV.default⟩ rfl
    have get1 : ∀ k, ((xs.set i ⟨o.al, ⟨o.bv.vec, o.bv.length⟩⟩).set j ⟨o.words.al, ⟨Vec.empty, 0⟩⟩)[k]? =
        if k = i then some ⟨o.al, o.bv⟩ else if k = j then some ⟨o.al, BV.default⟩ else xs[k]? := by
      intro k
      rw [List.getElem?_set, List.length_set, List.getElem?_set]
      by_cases hki : i = k
      · subst hki
        rw [if_neg (Ne.symm hij), if_pos rfl, if_pos hi, if_pos rfl]
      · by_cases hkj : j = k
        · subst hkj
          rw [if_pos rfl, if_pos hj, if_neg (Ne.symm hki), if_pos rfl]
          rfl
        · rw [if_neg hkj, if_neg hki, if_neg (Ne.symm hki), if_neg (Ne.symm hkj)]
    have get0 : ∀ k, (xs.set i (⟨x.al, BV.default⟩ : AB))[k]? = if k = i then some ⟨x.al, BV.default⟩ else xs[k]? := by
      intro k
      rw [List.getElem?_set]
      by_cases hki : i = k
      · subst hki; rw [if_pos rfl, if_pos hi, if_pos rfl]
      · rw [if_neg hki, if_neg (Ne.symm hki)]
    refine ⟨?_, ?_, ?_⟩
    · -- the lists
      have hst := (wpV_default e1.wf)
      rw [map_set_bv, map_set_bv]
      refine ⟨e1.wf, by simp [hlen], ?_, ?_⟩
      · intro k v k' hv hk
        rw [List.getElem?_set, List.length_set, List.getElem?_set, List.length_map] at hv
        rw [List.getElem?_set, List.length_set, List.getElem?_set] at hk
        by_cases hkj : j = k
        · subst hkj
          rw [if_pos rfl, if_pos hj] at hv
          rw [if_pos rfl, if_pos (by omega)] at hk
          cases hv; cases hk
          exact hst.2
        · rw [if_neg hkj] at hv hk
          by_cases hki : i = k
          · subst hki
            rw [if_pos rfl, if_pos hi] at hv
            rw [if_pos rfl, if_pos (by omega)] at hk
            cases hv; cases hk
            refine e1.rep j _ _ ?_ ?_
            · rw [List.getElem?_set, if_neg hij]; exact map_get ho
            · rw [List.getElem?_set, if_neg hij]; exact hl
          · rw [if_neg hki] at hv hk
            refine e1.rep k _ _ ?_ ?_
            · rw [List.getElem?_set, if_neg hki]; exact hv
            · rw [List.getElem?_set, if_neg hki]; exact hk
      · intro a b v u hv hu hab
        rw [List.getElem?_set, List.length_set, List.getElem?_set, List.length_map] at hv hu
        by_cases haj : j = a
        · subst haj
          rw [if_pos rfl, if_pos hj] at hv
          cases hv
          exact .inl rfl
        · rw [if_neg haj] at hv
          by_cases hbj : j = b
          · subst hbj
            rw [if_pos rfl, if_pos hj] at hu
            cases hu
            exact .inr (.inl rfl)
          · rw [if_neg hbj] at hu
            by_cases hai : i = a
            · subst hai
              rw [if_pos rfl, if_pos hi] at hv
              rw [if_neg hab] at hu
              cases hv
              exact e.env.sep j b _ _ (map_get ho) hu hbj
            · rw [if_neg hai] at hv
              by_cases hbi : i = b
              · subst hbi
                rw [if_pos rfl, if_pos hi] at hu
                cases hu
                exact e.env.sep a j _ _ hv (map_get ho) (Ne.symm haj)
              · rw [if_neg hbi] at hu
                exact e.env.sep a b _ _ hv hu hab
    · rw [map_set_al, map_set_al, e.als]
      refine list_set_self ?_
      rw [List.getElem?_set, if_neg hij]
      exact hoal
    · intro p a c
      rw [ok1 p a c]
      refine and_congr_right fun h0 => ?_
      constructor
      · rintro ⟨k, z, hz, q1, q2, q3⟩
        rw [get0] at hz
        by_cases hki : k = i
        · rw [if_pos hki] at hz; cases hz
          have : (0 : Nat) = c := q3
          omega
        · rw [if_neg hki] at hz
          by_cases hkj : k = j
          · subst hkj
            rw [ho] at hz; cases hz
            exact ⟨i, ⟨o.al, o.bv⟩, by rw [get1, if_pos rfl], q1, q2, q3⟩
          · exact ⟨k, z, by rw [get1, if_neg hki, if_neg hkj]; exact hz, q1, q2, q3⟩
      · rintro ⟨k, z, hz, q1, q2, q3⟩
        rw [get1] at hz
        by_cases hki : k = i
        · rw [if_pos hki] at hz; cases hz
          exact ⟨j, o, by rw [get0, if_neg (Ne.symm hij)]; exact ho, q1, q2, q3⟩
        · rw [if_neg hki] at hz
          by_cases hkj : k = j
          · rw [if_pos hkj] at hz; cases hz
            have : (0 : Nat) = c := q3
            omega
          · rw [if_neg hkj] at hz
            exact ⟨k, z, by rw [get0, if_neg hki]; exact hz, q1, q2, q3⟩
  · rw [if_neg (show ¬ (T.pocma = true ∨ x.words.al = o.words.al) from hc), if_neg hc, if_neg (fun hp => hc (.inl hp))]
    -- the words are moved one by one
    have hv : wpV (BV.copyAssign P x.bv o.bv) s.1 fun v h' => VStep s.1 x.bv.vec h' v.vec ∧ Rep h' v l := wpV_copyAssign (P := P) hw e.env.wf rx ro fun v h' s r => ⟨s, r⟩
    obtain ⟨v, h', e2, st2, r2⟩ := hv
    obtain ⟨vec, h2', e3, e4⟩ := runV_bind_inv e2
    cases e4
    refine wpA_bind (wpA_bind (wpA_heap ⟨vec, h', e3, ?_⟩))
    refine wpA_bind (wpA_mono (settled hw e hx (v' := ⟨vec, o.bv.length⟩) (e.env.update (map_get hx) st2 (.inl rfl) r2) rfl) ?_)
    rintro _ s1 ⟨h1, e1⟩
    have ho1 : (xs.set i ⟨x.al, ⟨vec, o.bv.length⟩⟩)[j]? = some o := by rw [List.getElem?_set, if_neg hij]; exact ho
    have hl1 : (ls.set i l)[j]? = some l := by rw [List.getElem?_set, if_neg hij]; exact hl
    have ro1 := e1.env.rep j _ _ (map_get ho1) hl1
    -- the rest
    have fin : ∀ (rest : Vec) (h2 : Heap w), VStep s1.1 o.bv.vec h2 rest → Rep h2 ⟨rest, 0⟩ [] → rest.ptr = o.bv.vec.ptr → rest.cap = o.bv.vec.cap →
        AEnvOk (h2, s1.2) ((xs.set i ⟨x.al, ⟨vec, o.bv.length⟩⟩).set j ⟨o.al, ⟨rest, 0⟩⟩) ((ls.set i l).set j []) as := by
      intro rest h2 st r hp hcap
      refine ⟨?_, ?_, ledger_same e1.led ho1 rfl hp hcap⟩
      · rw [map_set_bv]
        exact e1.env.update (map_get ho1) st (.inl rfl) r
      · rw [set_al_same (y := ⟨o.al, ⟨rest, 0⟩⟩) ho1 rfl]
        exact e1.als
    by_cases hcl : T.clears = true
    · rw [if_pos hcl]
      have hv : wpV (o.bv.clear : V w BV) s1.1 fun v h' => VStep s1.1 o.bv.vec h' v.vec ∧ Rep h' v [] ∧ v.vec.cap = o.bv.vec.cap := wpV_clear hw e1.env.wf ro1 fun v h' s r c => ⟨s, r, c⟩
      obtain ⟨v2, h2, q1, q2, q3, q4⟩ := hv
      obtain ⟨rest, h3, q5, q6⟩ := runV_bind_inv q1
      have hrest : rest.ptr = o.bv.vec.ptr := by cases q5; rfl
      cases q6
      refine wpA_bind (wpA_heap ⟨rest, h2, q5, ?_⟩)
      exact wpA_pure (wpA_pure ⟨h1, rfl, fin rest h2 q2 q3 hrest q4⟩)
    · rw [if_neg hcl]
      refine wpA_bind (wpA_pure (wpA_pure (wpA_pure ⟨h1, rfl, fin o.bv.vec s1.1 (VStep.refl e1.env.wf _) ?_ rfl rfl⟩)))
      exact ⟨ro1.ok, rfl, Nat.zero_le _, fun k hk => by simp at hk⟩

/-- Words assigned from a temporary vector. -/
theorem assignWords_ok (T : Traits) (hw : 0 < w) (P : Policy) (e : AEnvOk s xs ls as) (a n L : Nat) (f : Nat → Option (BitVec w)) (l : List Bool)
    (hf : wpV (Vec.fresh P n f) s.1 fun v h' => VStep s.1 Vec.empty h' v ∧ Rep h' ⟨v, L⟩ l) :
    wpA (AB.assignWords T P a n f) s fun ws s' => AskedOnly s.2 s'.2 [a, AOp.ranged T a] ∧
      AEnvOk s' (xs ++ [⟨ws.al, ⟨ws.vec, L⟩⟩]) (ls ++ [l]) (as ++ [AOp.ranged T a]) := by
  have hlen : xs.length = ls.length := by have := e.env.len; simpa using this
  have hlen2 : as.length = xs.length := by rw [← e.als, List.length_map]
  have e0 := env_empty e T.dflt
  unfold AB.assignWords
  refine wpA_bind (wpA_heap (wpV_mono hf ?_))
  rintro v h' ⟨st, r⟩
  refine wpA_bind (wpA_mono (taken hw e0 (a := a) st r rfl) ?_)
  rintro _ s1 ⟨h1, e1⟩
  -- the assignment
  have n1 : (xs ++ [(⟨T.dflt, BV.default⟩ : AB)]).length = xs.length + 1 := by simp
  have n2 : (ls ++ [([] : List Bool)]).length = xs.length + 1 := by simp [hlen]
  have hx : ((xs ++ [⟨T.dflt, BV.default⟩]) ++ [(⟨a, ⟨v, L⟩⟩ : AB)])[xs.length]? = some ⟨T.dflt, BV.default⟩ := by
    rw [List.getElem?_append_left (by omega)]; exact get_concat _ _
  have ho : ((xs ++ [⟨T.dflt, BV.default⟩]) ++ [(⟨a, ⟨v, L⟩⟩ : AB)])[xs.length + 1]? = some ⟨a, ⟨v, L⟩⟩ := by
    rw [← n1]; exact get_concat _ _
  have hl : ((ls ++ [[]]) ++ [l])[xs.length + 1]? = some l := by
    rw [← n2]; exact get_concat _ _
  have mv := moveAssign_ok T hw P e1 (i := xs.length) (j := xs.length + 1) (by omega) hx ho hl
  obtain ⟨⟨y, z⟩, s2, m1, m2, m3, m4⟩ := mv
  unfold AB.moveAssign at m1
  have minv : ∃ r, AWords.moveAssign T P ⟨T.dflt, Vec.empty⟩ ⟨a, v⟩ s1 = .ok (r, s2) ∧
      (y, z) = ((⟨r.1.al, ⟨r.1.vec, L⟩⟩ : AB), (⟨r.2.al, ⟨r.2.vec, 0⟩⟩ : AB)) := by
    cases hm : AWords.moveAssign T P (⟨T.dflt, Vec.empty⟩ : AWords) ⟨a, v⟩ s1 with
    | error er =>
      have : (Except.bind (AWords.moveAssign T P (⟨T.dflt, Vec.empty⟩ : AWords) ⟨a, v⟩ s1) fun q => _) = .ok ((y, z), s2) := m1
      rw [hm] at this
      cases this
    | ok q =>
      have := runA_bind (f := fun r : AWords × AWords => (pure ((⟨r.1.al, ⟨r.1.vec, L⟩⟩ : AB), (⟨r.2.al, ⟨r.2.vec, 0⟩⟩ : AB)) : AV w (AB × AB))) hm
      have h2 := this.symm.trans m1
      cases h2
      exact ⟨_, rfl, rfl⟩
  obtain ⟨r, r1, r2⟩ := minv
  cases r2
  refine wpA_bind ⟨r, s2, r1, ?_⟩
  -- the lists of three
  have es : ∀ {α : Type} (l : List α) (p q p' q' : α), ((((l ++ [p]) ++ [q]).set l.length p').set (l.length + 1) q') = (l ++ [p']) ++ [q'] := by
    intro α l p q p' q'
    simp
  have es1 : ∀ {α : Type} (l : List α) (p q p' : α), (((l ++ [p]) ++ [q]).set l.length p') = (l ++ [p']) ++ [q] := by
    intro α l p q p'
    simp
  rw [es, hlen, es] at m4
  have has : (if T.pocma = true then ((as ++ [T.dflt]) ++ [a]).set ls.length a else (as ++ [T.dflt]) ++ [a]) = (as ++ [AOp.ranged T a]) ++ [a] := by
    unfold AOp.ranged
    by_cases hp : T.pocma = true
    · rw [if_pos hp, if_pos hp, show ls.length = as.length by omega, es1]
    · rw [if_neg hp, if_neg hp]
  dsimp only at m4
  rw [has] at m4
  -- the temporary goes
  have n3 : (xs ++ [(⟨r.1.al, ⟨r.1.vec, L⟩⟩ : AB)]).length = xs.length + 1 := by simp
  have n4 : (ls ++ [l]).length = xs.length + 1 := by simp [hlen]
  have ds := destroy_ok hw m4 (i := xs.length + 1) (x := ⟨r.2.al, ⟨r.2.vec, 0⟩⟩) (by rw [← n3]; exact get_concat _ _)
  refine wpA_bind (wpA_mono ds ?_)
  rintro _ s3 ⟨d1, d2⟩
  rw [← n3, set_concat, n3, ← n4, set_concat] at d2
  refine wpA_pure ⟨?_, env_drop d2 rfl⟩
  refine asked_trans (asked_trans (asked_mono h1 (by simp)) (asked_mono m2 ?_)) (asked_same d1)
  intro b hb
  split_ifs at hb with hc
  · cases hb
  · have hp : ¬ T.pocma = true := fun hp => hc (.inl hp)
    simp only [List.mem_singleton] at hb
    rw [hb]
    unfold AOp.ranged
    rw [if_neg hp]
    simp

/-- Elements of the last vector were written. -/
theorem env_wrote {x : AB} {l l' : List Bool} (e : AEnvOk s (xs ++ [x]) (ls ++ [l]) as) {h' : Heap w} (st : VStep s.1 x.bv.vec h' x.bv.vec)
    (r : Rep h' x.bv l') : AEnvOk (h', s.2) (xs ++ [x]) (ls ++ [l']) as := by
  have hlen : xs.length = ls.length := by have := e.env.len; simpa using this
  refine ⟨?_, e.als, e.led⟩
  have := e.env.update (map_get (get_concat xs x)) (v' := x.bv) st (.inl rfl) r
  rw [← map_set_bv, set_concat, hlen, set_concat] at this
  exact this

theorem freshZero (hw : 0 < w) (P : Policy) (n : Nat) {h : Heap w} (hwf : h.WF) :
    wpV (Vec.fresh P n fun _ => some 0#w) h fun v h' => VStep h Vec.empty h' v ∧ Rep h' ⟨v, n⟩ (List.replicate n false) := by
  have hle := le_mul_self hw n
  have hlei : (n : Int) ≤ (n : Int) * (w : Int) := by exact_mod_cast hle
  refine wpV_freshConst hw false (fun _ _ => by simp) hwf ?_
  intro v h' st ok e _ _ hb
  refine ⟨st, ok, by simp, by rw [e]; exact hle, ?_⟩
  intro i hi
  rw [hb i (by omega) (by simp at hi; omega), List.getElem_replicate]

theorem ofBoolRange_ok (T : Traits) (S : ShiftSem w) (hw : 0 < w) (P : Policy) (l : List Bool) (a : Nat) (e : AEnvOk s xs ls as) :
    wpA (AB.ofBoolRange T S P l a) s fun x s' => AskedOnly s.2 s'.2 [a, AOp.ranged T a] ∧
      AEnvOk s' (xs ++ [x]) (ls ++ [l]) (as ++ [AOp.ranged T a]) := by
  have hlen : xs.length = ls.length := by have := e.env.len; simpa using this
  unfold AB.ofBoolRange
  refine wpA_bind (wpA_mono (assignWords_ok T hw P e a l.length l.length _ _ (freshZero hw P l.length e.env.wf)) ?_)
  rintro ws s1 ⟨h1, e1⟩
  have r := e1.env.rep xs.length _ _ (map_get (get_concat _ _)) (by rw [hlen]; exact get_concat _ _)
  have hfi : (l.length : Int) ≤ (ws.vec.size : Int) * (w : Int) := by exact_mod_cast r.fit
  refine wpA_bind (wpA_heap (wpV_onMem (wp_writeBools S hw l (BV.begin_valid hw _) ?_ ?_)))
  · rw [BV.begin_addr]
    intro i hi1 hi2
    exact r.ok.mapped i hi1 (by dsimp only at hi2 ⊢; omega)
  · intro m' hw3
    rw [BV.begin_addr] at hw3
    obtain ⟨s2, r2⟩ := wrote_rep (n := l.length) e1.env.wf r.ok rfl r.fit hw3 (fun j hj => by
      dsimp only
      rw [show (ws.vec.ptr * (w : Int) + j - ws.vec.ptr * (w : Int)).toNat = j by omega, List.getElem?_eq_getElem])
    exact wpA_pure ⟨h1, env_wrote e1 s2 r2⟩

theorem ofString_ok (T : Traits) (S : ShiftSem w) (hw : 0 < w) (P : Policy) (t : List Char) (e : AEnvOk s xs ls as) :
    wpA (AB.ofString T S P t) s fun x s' => AskedOnly s.2 s'.2 [T.dflt] ∧ AEnvOk s' (xs ++ [x]) (ls ++ [digitsOf t]) (as ++ [T.dflt]) := by
  have hlen : xs.length = ls.length := by have := e.env.len; simpa using this
  have hr : AOp.ranged T T.dflt = T.dflt := by unfold AOp.ranged; split_ifs <;> rfl
  unfold AB.ofString
  rw [← length_digitsOf]
  dsimp only
  refine wpA_bind (wpA_mono (assignWords_ok T hw P e T.dflt (digitsOf t).length (digitsOf t).length _ _ (freshZero hw P _ e.env.wf)) ?_)
  rintro ws s1 ⟨h1, e1⟩
  rw [hr] at h1 e1
  have r := e1.env.rep xs.length _ _ (map_get (get_concat _ _)) (by rw [hlen]; exact get_concat _ _)
  have hfi : ((digitsOf t).length : Int) ≤ (ws.vec.size : Int) * (w : Int) := by exact_mod_cast r.fit
  refine wpA_bind (wpA_heap (wpV_onMem (wp_writeChars S hw t ?_ ?_)))
  · rw [BV.begin_addr]
    intro i hi1 hi2
    dsimp only at hi1 hi2
    exact r.ok.mapped i (by dsimp only; omega) (by dsimp only; omega)
  · intro m' hw3
    rw [BV.begin_addr] at hw3
    dsimp only at hw3
    rw [show ws.vec.ptr * (w : Int) + ((0 : Nat) : Int) = ws.vec.ptr * (w : Int) by omega] at hw3
    obtain ⟨s2, r2⟩ := wrote_rep (n := (digitsOf t).length) e1.env.wf r.ok rfl r.fit hw3 (fun j hj => by
      rw [show (ws.vec.ptr * (w : Int) + j - ws.vec.ptr * (w : Int) - ((0 : Nat) : Int)).toNat = j by omega, List.getElem?_eq_getElem])
    exact wpA_pure ⟨asked_mono h1 (by simp), env_wrote e1 s2 r2⟩

theorem ofWordRange_ok (T : Traits) (hw : 0 < w) (P : Policy) (l : List (BitVec w)) (a : Nat) (e : AEnvOk s xs ls as) :
    wpA (AB.ofWordRange T P l a) s fun x s' => AskedOnly s.2 s'.2 [a, AOp.ranged T a] ∧
      AEnvOk s' (xs ++ [x]) (ls ++ [bitsOfWords l]) (as ++ [AOp.ranged T a]) := by
  have hv : wpV (BV.ofWords P l) s.1 fun v h' => VStep s.1 Vec.empty h' v.vec ∧ Rep h' v (bitsOfWords l) := wpV_ofWords (P := P) (l := l) hw e.env.wf fun v h' s r => ⟨s, r⟩
  obtain ⟨v, h', e1, st, r⟩ := hv
  obtain ⟨vec, h2, e2, e3⟩ := runV_bind_inv e1
  have hsz : vec.size = l.length := by cases e2; rfl
  cases e3
  unfold AB.ofWordRange
  rw [hsz, Nat.mul_comm] at r
  refine wpA_bind (wpA_mono (assignWords_ok T hw P e a l.length (w * l.length) _ (bitsOfWords l) ⟨vec, h', e2, st, r⟩) ?_)
  rintro ws s1 h1
  exact wpA_pure h1

/-- A member that works in place has its vector replaced. -/
theorem target_inv {S : ShiftSem w} {P : Policy} {op : Op w} {i : Nat} {vs vs' : List BV} {h h' : Heap w} (ht : op.target = some i)
    (he : op.exec S P vs h = .ok (vs', h')) : ∃ v v', vs[i]? = some v ∧ vs' = vs.set i v' := by
  have one : ∀ (f : BV → V w BV), onVec vs i f h = .ok (vs', h') → ∃ v v', vs[i]? = some v ∧ vs' = vs.set i v' := by
    intro f hf
    cases hv : vs[i]? with
    | none => unfold onVec at hf; rw [hv] at hf; cases hf
    | some v =>
      obtain ⟨v', _, e2⟩ := onVec_inv hv hf
      exact ⟨v, v', rfl, e2⟩
  have two : ∀ (j : Nat) (f : BV → BV → V w BV), onVec2 vs i j f h = .ok (vs', h') → ∃ v v', vs[i]? = some v ∧ vs' = vs.set i v' := by
    intro j f hf
    cases hv : vs[i]? with
    | none => unfold onVec2 at hf; rw [hv] at hf; cases hf
    | some v =>
      cases ho : vs[j]? with
      | none => unfold onVec2 at hf; rw [hv, ho] at hf; cases hf
      | some o =>
        obtain ⟨v', _, e2⟩ := onVec2_inv hv ho hf
        exact ⟨v, v', rfl, e2⟩
  cases op <;> (try cases ht) <;> (try exact one _ he)
  exact two _ _ he

end Allocs
end BitLib
