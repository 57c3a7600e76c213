import Verif.SpecVec
import Verif.Lemmas.Iter
import Verif.Lemmas.Wp
import Mathlib.Tactic.SplitIfs
import Mathlib.Tactic.Ring
import Mathlib.Tactic.Linarith
/- `std::vector` operations seen through `bitAt`. -/
namespace BitLib
variable {w : Nat} {α β : Type}

/-- `x` started in `h` ends normally in a result satisfying `Q`. -/
def wpV (x : V w α) (h : Heap w) (Q : α → Heap w → Prop) : Prop := ∃ a h', x h = .ok (a, h') ∧ Q a h'

theorem wpV_pure {a : α} {h : Heap w} {Q : α → Heap w → Prop} (hq : Q a h) : wpV (pure a) h Q := ⟨a, h, rfl, hq⟩

theorem wpV_bind {x : V w α} {f : α → V w β} {h : Heap w} {Q : β → Heap w → Prop} :
    wpV (x >>= f) h Q ↔ wpV x h (fun a h' => wpV (f a) h' Q) := by
  constructor
  · rintro ⟨b, m2, hx2, hQ⟩
    have h' : (Except.bind (x h) fun p => f p.1 p.2) = .ok (b, m2) := hx2
    cases hx : x h with
    | error e => rw [hx] at h'; cases h'
    | ok p =>
      rw [hx] at h'
      exact ⟨p.1, p.2, hx, b, m2, h', hQ⟩
  · rintro ⟨a, m1, hx, b, m2, hf, hQ⟩
    refine ⟨b, m2, ?_, hQ⟩
    show (Except.bind (x h) fun p => f p.1 p.2) = .ok (b, m2)
    rw [hx]
    exact hf

theorem wpV_mono {x : V w α} {h : Heap w} {Q R : α → Heap w → Prop}
    (hx : wpV x h Q) (hQR : ∀ a h', Q a h' → R a h') : wpV x h R := by
  obtain ⟨a, m', hx, hQ⟩ := hx
  exact ⟨a, m', hx, hQR a m' hQ⟩

theorem wpV_onMem {p : M w α} {h : Heap w} {Q : α → Heap w → Prop}
    (hp : wp p h.mem fun a m => Q a { h with mem := m }) : wpV (onMem p) h Q := by
  obtain ⟨a, m', hx, hQ⟩ := hp
  refine ⟨a, _, ?_, hQ⟩
  unfold onMem
  rw [hx]

/-- How a program stops early. -/
def failsV (x : V w α) (h : Heap w) (e : Stop) : Prop := x h = .error e

theorem failsV_bind {x : V w α} {f : α → V w β} {h : Heap w} {e : Stop} (hx : wpV x h fun a h' => failsV (f a) h' e) :
    failsV (x >>= f) h e := by
  obtain ⟨a, h', hx, hf⟩ := hx
  show (Except.bind (x h) fun p => f p.1 p.2) = .error e
  rw [hx]; exact hf

theorem failsV_bind_left {x : V w α} {f : α → V w β} {h : Heap w} {e : Stop} (hx : failsV x h e) :
    failsV (x >>= f) h e := by
  show (Except.bind (x h) fun p => f p.1 p.2) = .error e
  rw [show x h = .error e from hx]; rfl

theorem failsV_onMem {p : M w α} {h : Heap w} {e : UB} (hp : p h.mem = .error e) : failsV (onMem p) h (.ub e) := by
  unfold failsV onMem
  rw [hp]

theorem bitAt_place (hw : 0 < w) (m : Mem w) (a : Int) (n : Nat) (f : Nat → Option (BitVec w)) (i : Int) :
    bitAt (m.place a n f) i = if a * (w : Int) ≤ i ∧ i < a * (w : Int) + (n : Int) * (w : Int)
      then (f (i / (w : Int) - a).toNat).map (fun x => x.getLsbD (i % (w : Int)).toNat) else bitAt m i := by
  have hw' : (0 : Int) < w := by omega
  have h1 : a * (w : Int) ≤ i ↔ a ≤ i / (w : Int) := (Int.le_ediv_iff_mul_le hw').symm
  have h2 : i < a * (w : Int) + (n : Int) * (w : Int) ↔ i / (w : Int) < a + (n : Int) := by
    rw [← Int.add_mul]; exact (Int.ediv_lt_iff_lt_mul hw').symm
  simp only [h1, h2]
  unfold bitAt Mem.place
  split_ifs <;> rfl

theorem bitAt_place_none (hw : 0 < w) (m : Mem w) (a : Int) (n : Nat) (i : Int) :
    bitAt (m.place a n fun _ => none) i = if a * (w : Int) ≤ i ∧ i < a * (w : Int) + (n : Int) * (w : Int)
      then none else bitAt m i := by
  rw [bitAt_place hw]; rfl

theorem bitAt_place_move (hw : 0 < w) (m m0 : Mem w) (a p : Int) (n : Nat) (i : Int) :
    bitAt (m.place a n fun k => m0 (p + (k : Int))) i = if a * (w : Int) ≤ i ∧ i < a * (w : Int) + (n : Int) * (w : Int)
      then bitAt m0 (p * (w : Int) + (i - a * (w : Int))) else bitAt m i := by
  rw [bitAt_place hw]
  have hw' : (0 : Int) < w := by omega
  split_ifs with h
  · have h1 : a ≤ i / (w : Int) := (Int.le_ediv_iff_mul_le hw').2 h.1
    unfold bitAt
    have e : p * (w : Int) + (i - a * (w : Int)) = i + (w : Int) * (p - a) := by ring
    rw [e, Int.add_mul_ediv_left _ _ (by omega), Int.add_mul_emod_self_left]
    rw [show p + ((i / (w : Int) - a).toNat : Int) = i / (w : Int) + (p - a) by omega]
  · rfl

theorem bitAt_place_const (hw : 0 < w) (m : Mem w) (a : Int) (n : Nat) (b : Bool) (i : Int) :
    bitAt (m.place a n fun _ => some (if b then BitVec.allOnes w else 0#w)) i
      = if a * (w : Int) ≤ i ∧ i < a * (w : Int) + (n : Int) * (w : Int) then some b else bitAt m i := by
  rw [bitAt_place hw]
  split_ifs with h1 h2
  · rw [Option.map_some, BitVec.getLsbD_allOnes, h2]
    have := Int.emod_lt_of_pos i (by omega : (0 : Int) < w)
    have := Int.emod_nonneg i (by omega : (w : Int) ≠ 0)
    congr 1
    exact decide_eq_true (by omega)
  · rw [Option.map_some, BitVec.getLsbD_zero]
    simp at h2; rw [h2]
  · rfl

theorem bitAt_place_zero (hw : 0 < w) (m : Mem w) (a : Int) (n : Nat) (i : Int) :
    bitAt (m.place a n fun _ => some 0#w) i
      = if a * (w : Int) ≤ i ∧ i < a * (w : Int) + (n : Int) * (w : Int) then some false else bitAt m i := by
  have := bitAt_place_const hw m a n false i
  simpa using this

theorem nat_mul_cast_le {a b : Nat} (h : a ≤ b) :
    0 ≤ (a : Int) * (w : Int) ∧ (a : Int) * (w : Int) ≤ (b : Int) * (w : Int) :=
  ⟨Int.mul_nonneg (by omega) (by omega), Int.mul_le_mul_of_nonneg_right (by omega) (by omega)⟩

theorem VStep.refl {h : Heap w} (hwf : h.WF) (v : Vec) : VStep h v h v :=
  ⟨hwf, Int.le_refl _, fun _ _ _ => rfl, Or.inl ⟨rfl, rfl⟩⟩

theorem VStep.trans {h h1 h2 : Heap w} {v v1 v2 : Vec} (s1 : VStep h v h1 v1) (s2 : VStep h1 v1 h2 v2) :
    VStep h v h2 v2 := by
  refine ⟨s2.wf, Int.le_trans s1.next s2.next, ?_, ?_⟩
  · intro i hi ho
    have h1n := s1.next
    rw [s2.frame i (by omega), s1.frame i hi ho]
    rcases s1.region with ⟨e1, e2⟩ | e
    · rw [e1, e2]; exact ho
    · left; omega
  · rcases s2.region with ⟨e1, e2⟩ | e
    · rw [e1, e2]
      exact s1.region
    · right; exact Int.le_trans s1.next e

theorem VStep.same {h h' : Heap w} {v v' v'' : Vec} (s : VStep h v h' v') (e1 : v''.ptr = v'.ptr) (e2 : v''.cap = v'.cap) :
    VStep h v h' v'' := ⟨s.wf, s.next, s.frame, by rw [e1, e2]; exact s.region⟩

/-- A change of constructed words only. -/
theorem VStep.ofMem {h : Heap w} {v : Vec} {m' : Mem w} (hwf : h.WF) (hok : VecOk h v)
    (hfr : ∀ i, (i < v.ptr * (w : Int) ∨ v.ptr * (w : Int) + (v.size : Int) * (w : Int) ≤ i) → bitAt m' i = bitAt h.mem i) :
    VStep h v { h with mem := m' } v := by
  have hc := nat_mul_cast_le (w := w) hok.cap
  have hb := hok.below
  refine ⟨⟨hwf.nonneg, ?_⟩, Int.le_refl _, ?_, Or.inl ⟨rfl, rfl⟩⟩
  · intro i hi
    dsimp only at hi ⊢
    rw [hfr i (by omega)]
    exact hwf.unused i hi
  · intro i _ ho
    exact hfr i (by omega)

theorem VecOk.ofMem {h : Heap w} {v : Vec} {m' : Mem w} (hok : VecOk h v) (hs : SameMapped h.mem m') :
    VecOk { h with mem := m' } v :=
  ⟨hok.cap, hok.below, fun i h1 h2 => by rw [hs i]; exact hok.mapped i h1 h2⟩

theorem next_mul (n : Int) (c : Nat) : (n + (c : Int) + 1) * (w : Int) = n * (w : Int) + (c : Int) * (w : Int) + (w : Int) := by ring

theorem wpV_fresh (hw : 0 < w) {P : Policy} {n : Nat} {f : Nat → Option (BitVec w)} {h : Heap w} {Q : Vec → Heap w → Prop}
    (hwf : h.WF)
    (hQ : ∀ v h', VStep h Vec.empty h' v → h.next * (w : Int) ≤ v.ptr * (w : Int) →
      v.size ≤ v.cap → v.ptr * (w : Int) + (v.cap : Int) * (w : Int) ≤ h'.next * (w : Int) → v.size = n →
      (∀ k b : Nat, k < n → b < w → bitAt h'.mem (v.ptr * (w : Int) + ((k * w + b : Nat) : Int)) = (f k).map (·.getLsbD b)) →
      (∀ i, i < h.next * (w : Int) → bitAt h'.mem i = bitAt h.mem i) → Q v h') :
    wpV (Vec.fresh P n f) h Q := by
  have hc := nat_mul_cast_le (w := w) (P.alloc_ok n)
  refine ⟨_, _, rfl, hQ _ _ ⟨⟨?_, ?_⟩, ?_, ?_, ?_⟩ ?_ (P.alloc_ok n) ?_ rfl ?_ ?_⟩
  · dsimp only
    have := hwf.nonneg
    omega
  · intro i hi
    dsimp only at hi ⊢
    rw [next_mul] at hi
    rw [bitAt_place hw, if_neg (by omega)]
    exact hwf.unused i (by omega)
  · dsimp only
    rw [next_mul]; omega
  · intro i hi ho
    dsimp only
    rw [bitAt_place hw, if_neg (by omega)]
  · exact Or.inr (Int.le_refl _)
  · exact Int.le_refl _
  · dsimp only
    rw [next_mul]; omega
  · intro k b hk hb
    dsimp only
    rw [bitAt_place hw]
    have h1 : (k : Int) * (w : Int) + w ≤ (n : Int) * (w : Int) := base_lt_mul (by omega)
    have h2 : ((k * w + b : Nat) : Int) = (k : Int) * (w : Int) + (b : Int) := by push_cast; ring
    have h3 : (0 : Int) ≤ (k : Int) * (w : Int) := Int.mul_nonneg (by omega) (by omega)
    rw [h2, if_pos (by omega)]
    have h4 : h.next * (w : Int) + ((k : Int) * (w : Int) + (b : Int)) = (h.next + k) * (w : Int) + (b : Int) := by ring
    rw [h4, ediv_of_word _ _ hb, emod_of_word _ _ hb]
    rw [show (h.next + (k : Int) - h.next).toNat = k by omega]
    rfl
  · intro i hi
    dsimp only
    rw [bitAt_place hw, if_neg (by omega)]

theorem wpV_realloc (hw : 0 < w) {v : Vec} {cap : Nat} {h : Heap w} {Q : Vec → Heap w → Prop}
    (hwf : h.WF) (hok : VecOk h v) (hcap : v.size ≤ cap)
    (hQ : ∀ v' h', VStep h v h' v' → VecOk h' v' → v'.size = v.size → v'.cap = cap →
      (∀ i, 0 ≤ i → i < (v.size : Int) * (w : Int) →
        bitAt h'.mem (v'.ptr * (w : Int) + i) = bitAt h.mem (v.ptr * (w : Int) + i)) → Q v' h') :
    wpV (v.realloc cap) h Q := by
  have hc := nat_mul_cast_le (w := w) hcap
  have hc2 := nat_mul_cast_le (w := w) hok.cap
  have hb := hok.below
  have hbit : ∀ i, 0 ≤ i → i < (v.size : Int) * (w : Int) →
      bitAt ((h.mem.place v.ptr v.cap fun _ => none).place h.next v.size fun i => h.mem (v.ptr + (i : Int)))
        (h.next * (w : Int) + i) = bitAt h.mem (v.ptr * (w : Int) + i) := by
    intro i h0 h1
    rw [bitAt_place_move hw, if_pos (by omega)]
    congr 1; omega
  refine ⟨_, _, rfl, hQ _ _ ⟨⟨?_, ?_⟩, ?_, ?_, ?_⟩ ⟨hcap, ?_, ?_⟩ rfl rfl ?_⟩
  · dsimp only
    have := hwf.nonneg
    omega
  · intro i hi
    dsimp only at hi ⊢
    rw [next_mul] at hi
    rw [bitAt_place_move hw, if_neg (by omega), bitAt_place_none hw]
    split_ifs
    · rfl
    · exact hwf.unused i (by omega)
  · dsimp only
    rw [next_mul]; omega
  · intro i hi ho
    dsimp only
    rw [bitAt_place_move hw, if_neg (by omega), bitAt_place_none hw, if_neg (by omega)]
  · exact Or.inr (Int.le_refl _)
  · dsimp only
    rw [next_mul]; omega
  · intro i h1 h2
    dsimp only at h1 h2 ⊢
    have := hbit (i - h.next * (w : Int)) (by omega) (by omega)
    rw [show h.next * (w : Int) + (i - h.next * (w : Int)) = i by omega] at this
    rw [this]
    exact hok.mapped _ (by omega) (by omega)
  · exact hbit

/-- Construct `n` more words inside the capacity. -/
theorem extend_ok (hw : 0 < w) {v : Vec} {n : Nat} {h : Heap w} {f : Nat → Option (BitVec w)} (hf : ∀ k, (f k).isSome)
    (hwf : h.WF) (hok : VecOk h v) (hn : v.size ≤ n) (hcap : n ≤ v.cap) :
    let h' : Heap w := { h with mem := h.mem.place (v.ptr + (v.size : Int)) (n - v.size) f }
    VStep h v h' { v with size := n } ∧ VecOk h' { v with size := n } ∧
      (∀ i, i < (v.size : Int) * (w : Int) →
        bitAt h'.mem (v.ptr * (w : Int) + i) = bitAt h.mem (v.ptr * (w : Int) + i)) := by
  have hc := nat_mul_cast_le (w := w) hcap
  have hc1 := nat_mul_cast_le (w := w) hn
  have hb := hok.below
  have e1 : (v.ptr + (v.size : Int)) * (w : Int) = v.ptr * (w : Int) + (v.size : Int) * (w : Int) := by ring
  have e2 : ((n - v.size : Nat) : Int) * (w : Int) = (n : Int) * (w : Int) - (v.size : Int) * (w : Int) := by
    rw [Int.ofNat_sub hn]; ring
  have e0 : (0 : Int) ≤ (v.size : Int) * (w : Int) := Int.mul_nonneg (by omega) (by omega)
  intro h'
  refine ⟨⟨⟨hwf.nonneg, ?_⟩, Int.le_refl _, ?_, Or.inl ⟨rfl, rfl⟩⟩, ⟨hcap, hok.below, ?_⟩, ?_⟩
  · intro i hi
    have hi' : h.next * (w : Int) ≤ i := hi
    show bitAt (h.mem.place _ _ _) i = none
    rw [bitAt_place hw, e1, e2, if_neg (by omega)]
    exact hwf.unused i hi
  · intro i hi ho
    show bitAt (h.mem.place _ _ _) i = _
    rw [bitAt_place hw, e1, e2, if_neg (by omega)]
  · intro i h1 h2
    dsimp only at h1 h2
    show (bitAt (h.mem.place _ _ _) i).isSome
    rw [bitAt_place hw, e1, e2]
    split_ifs with hc
    · rw [Option.isSome_map]; exact hf _
    · exact hok.mapped _ (by omega) (by omega)
  · intro i hi
    show bitAt (h.mem.place _ _ _) _ = _
    rw [bitAt_place hw, e1, e2, if_neg (by omega)]

/-- Destroy the words from `n` on. -/
theorem shrink_ok (hw : 0 < w) {v : Vec} {n : Nat} {h : Heap w} (hwf : h.WF) (hok : VecOk h v) (hn : n ≤ v.size) :
    let h' : Heap w := { h with mem := h.mem.place (v.ptr + (n : Int)) (v.size - n) fun _ => none }
    VStep h v h' { v with size := n } ∧ VecOk h' { v with size := n } ∧
      (∀ i, i < (n : Int) * (w : Int) →
        bitAt h'.mem (v.ptr * (w : Int) + i) = bitAt h.mem (v.ptr * (w : Int) + i)) := by
  have hc := nat_mul_cast_le (w := w) hok.cap
  have hc1 := nat_mul_cast_le (w := w) hn
  have hb := hok.below
  have hcap := hok.cap
  have e1 : (v.ptr + (n : Int)) * (w : Int) = v.ptr * (w : Int) + (n : Int) * (w : Int) := by ring
  have e2 : ((v.size - n : Nat) : Int) * (w : Int) = (v.size : Int) * (w : Int) - (n : Int) * (w : Int) := by
    rw [Int.ofNat_sub hn]; ring
  have e0 : (0 : Int) ≤ (n : Int) * (w : Int) := Int.mul_nonneg (by omega) (by omega)
  intro h'
  have hm : h'.mem = h.mem.place (v.ptr + (n : Int)) (v.size - n) (fun _ => none) := rfl
  refine ⟨⟨⟨hwf.nonneg, ?_⟩, Int.le_refl _, ?_, Or.inl ⟨rfl, rfl⟩⟩, ⟨by dsimp only; omega, hok.below, ?_⟩, ?_⟩
  · intro i hi
    have hi' : h.next * (w : Int) ≤ i := hi
    rw [hm]
    rw [bitAt_place_none hw]
    split_ifs
    · rfl
    · exact hwf.unused i hi
  · intro i hi ho
    rw [hm]
    rw [bitAt_place_none hw, e1, e2, if_neg (by omega)]
  · intro i h1 h2
    dsimp only at h1 h2
    rw [hm]
    rw [bitAt_place_none hw, e1, e2, if_neg (by omega)]
    exact hok.mapped _ (by omega) (by omega)
  · intro i hi
    rw [hm]
    rw [bitAt_place_none hw, e1, e2, if_neg (by omega)]

theorem wpV_grown (hw : 0 < w) {P : Policy} {v : Vec} {n : Nat} {h : Heap w} {Q : Vec → Heap w → Prop}
    (hwf : h.WF) (hok : VecOk h v)
    (hn : v.size ≤ n)
    (hQ : ∀ v' h', VStep h v h' v' → VecOk h' v' → v'.size = v.size → n ≤ v'.cap →
      (∀ i, 0 ≤ i → i < (v.size : Int) * (w : Int) →
        bitAt h'.mem (v'.ptr * (w : Int) + i) = bitAt h.mem (v.ptr * (w : Int) + i)) → Q v' h') :
    wpV (v.ensure P n) h Q := by
  unfold Vec.ensure
  split_ifs with hc
  · exact wpV_pure (hQ v h (VStep.refl hwf v) hok rfl hc (fun _ _ _ => rfl))
  · have hg := P.grow_ok v.cap n
    refine wpV_realloc hw hwf hok (by omega) ?_
    intro v' h' s o e1 e2 hb
    exact hQ v' h' s o e1 (by omega) hb

theorem wpV_resize (hw : 0 < w) {P : Policy} {v : Vec} {n : Nat} {h : Heap w} {Q : Vec → Heap w → Prop}
    (hwf : h.WF) (hok : VecOk h v)
    (hQ : ∀ v' h', VStep h v h' v' → VecOk h' v' → v'.size = n →
      (∀ i, 0 ≤ i → i < (v.size : Int) * (w : Int) → i < (n : Int) * (w : Int) →
        bitAt h'.mem (v'.ptr * (w : Int) + i) = bitAt h.mem (v.ptr * (w : Int) + i)) →
      (∀ i, (v.size : Int) * (w : Int) ≤ i → i < (n : Int) * (w : Int) →
        bitAt h'.mem (v'.ptr * (w : Int) + i) = some false) → Q v' h') :
    wpV (v.resize P n) h Q := by
  unfold Vec.resize
  split_ifs with hle
  · obtain ⟨s, o, hb⟩ := shrink_ok hw hwf hok hle
    have := nat_mul_cast_le (w := w) hle
    exact ⟨_, _, rfl, hQ _ _ s o rfl (fun i _ _ h2 => hb i h2) (fun i h1 h2 => by omega)⟩
  · rw [wpV_bind]
    refine wpV_grown hw hwf hok (by omega) ?_
    intro v1 h1 s1 o1 e1 hc1 hb1
    obtain ⟨s, o, hb⟩ := extend_ok hw (n := n) (f := fun _ => some 0#w) (fun _ => rfl) s1.wf o1 (by omega) hc1
    refine ⟨_, _, rfl, hQ _ _ (s1.trans s) o rfl ?_ ?_⟩
    · intro i h0 h2 _
      rw [← hb1 i h0 h2]
      exact hb i (by rw [e1]; exact h2)
    · intro i h2 h3
      dsimp only
      have e2 : (v1.ptr + (v1.size : Int)) * (w : Int) = v1.ptr * (w : Int) + (v1.size : Int) * (w : Int) := by ring
      have e3 : ((n - v1.size : Nat) : Int) * (w : Int) = (n : Int) * (w : Int) - (v1.size : Int) * (w : Int) := by
        rw [Int.ofNat_sub (by omega)]; ring
      rw [bitAt_place_zero hw, e2, e3, e1, if_pos (by omega)]

theorem wpV_pushBack (hw : 0 < w) {P : Policy} {v : Vec} {x : BitVec w} {h : Heap w} {Q : Vec → Heap w → Prop}
    (hwf : h.WF) (hok : VecOk h v)
    (hQ : ∀ v' h', VStep h v h' v' → VecOk h' v' → v'.size = v.size + 1 →
      (∀ i, 0 ≤ i → i < (v.size : Int) * (w : Int) →
        bitAt h'.mem (v'.ptr * (w : Int) + i) = bitAt h.mem (v.ptr * (w : Int) + i)) → Q v' h') :
    wpV (v.pushBack P x) h Q := by
  unfold Vec.pushBack
  rw [wpV_bind]
  refine wpV_grown hw hwf hok (by omega) ?_
  intro v1 h1 s1 o1 e1 hc1 hb1
  obtain ⟨s, o, hb⟩ := extend_ok hw (n := v1.size + 1) (f := fun _ => some x) (fun _ => rfl) s1.wf o1 (by omega) (by omega)
  rw [show v1.size + 1 - v1.size = 1 by omega] at s o hb
  refine ⟨_, _, rfl, hQ _ _ (s1.trans s) o (by dsimp only; omega) ?_⟩
  intro i h0 h2
  rw [← hb1 i h0 h2]
  exact hb i (by rw [e1]; exact h2)

theorem wpV_popBack (hw : 0 < w) {v : Vec} {h : Heap w} {Q : Vec → Heap w → Prop}
    (hwf : h.WF) (hok : VecOk h v) (hs : 0 < v.size)
    (hQ : ∀ v' h', VStep h v h' v' → VecOk h' v' → v'.size = v.size - 1 → v'.ptr = v.ptr →
      (∀ i, i < ((v.size - 1 : Nat) : Int) * (w : Int) →
        bitAt h'.mem (v'.ptr * (w : Int) + i) = bitAt h.mem (v.ptr * (w : Int) + i)) → Q v' h') :
    wpV (v.popBack) h Q := by
  unfold Vec.popBack
  rw [if_neg (by omega)]
  obtain ⟨s, o, hb⟩ := shrink_ok hw hwf hok (n := v.size - 1) (by omega)
  rw [show v.size - (v.size - 1) = 1 by omega] at s o hb
  exact ⟨_, _, rfl, hQ _ _ s o rfl rfl hb⟩

end BitLib
