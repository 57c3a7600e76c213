import Verif.Lemmas.ConstEval
import Verif.Lemmas.Client
/- Constant evaluation of programs that use iterators, references and pointers: the checks are those of the positions on the tape. -/
namespace BitLib
namespace CE
variable {w : Nat} {A : Arr} {o : Int}

theorem word_of {b : Int} {p : Nat} (lo hi : Int) (hp : p < w) :
    (lo ≤ b ↔ lo * w ≤ b * w + p) ∧ (b ≤ hi ↔ b * w + p < hi * w + w) ∧ (b < hi ↔ b * w + p < hi * w) := by
  have h1 : ∀ c : Int, c ≤ b → c * (w : Int) ≤ b * w := fun c h => Int.mul_le_mul_of_nonneg_right h (by omega)
  have h2 : ∀ c : Int, b < c → b * (w : Int) + w ≤ c * w := fun c h => by
    have : (b + 1) * (w : Int) ≤ c * w := Int.mul_le_mul_of_nonneg_right (by omega) (by omega)
    rw [Int.add_mul] at this
    omega
  have h3 : ∀ c : Int, c < b → c * (w : Int) + w ≤ b * w := fun c h => by
    have : (c + 1) * (w : Int) ≤ b * w := Int.mul_le_mul_of_nonneg_right (by omega) (by omega)
    rw [Int.add_mul] at this
    omega
  refine ⟨⟨fun h => ?_, fun h => ?_⟩, ⟨fun h => ?_, fun h => ?_⟩, ⟨fun h => ?_, fun h => ?_⟩⟩
  · have := h1 _ h; omega
  · by_contra hc
    have := h2 lo (by omega)
    omega
  · rcases Int.lt_or_eq_of_le h with h | rfl
    · have := h2 _ h; omega
    · omega
  · by_contra hc
    have := h3 hi (by omega)
    omega
  · have := h2 _ h; omega
  · by_contra hc
    have := h1 hi (by omega)
    omega

/-- The check passes exactly if `G`, and changes nothing. -/
def Tests (k : CM w Unit) (G : Prop) : Prop := ∀ m r, k m = .ok r ↔ r = ((), m) ∧ G

theorem Tests.use {α : Type} {R : α → Int → Prop} {x : Option α} {y : Option Int} (h : SameSlot R x y) {k : α → CM w Unit} {G : Int → Prop}
    (hk : ∀ a p, R a p → Tests (k a) (G p)) : Tests (CE.use x k) (∀ p ∈ y, G p) := by
  rcases h with ⟨rfl, rfl⟩ | ⟨a, p, rfl, rfl, h⟩
  · intro m r
    simp only [CE.use, Option.not_mem_none, false_implies, implies_true, and_true]
    show Except.ok ((), m) = .ok r ↔ _
    simp [eq_comm]
  · simpa [CE.use] using hk _ _ h

theorem Tests.bind {k k' : CM w Unit} {G G' : Prop} (h : Tests k G) (h' : Tests k' G') : Tests (k >>= fun _ => k') (G ∧ G') := by
  intro m r
  show (k m >>= fun r => k' r.2 : Except KStop _) = .ok r ↔ _
  by_cases hG : G
  · rw [(h m ((), m)).2 ⟨rfl, hG⟩]
    show k' m = .ok r ↔ _
    rw [h' m r]
    simp [hG]
  · cases hk : k m with
    | ok x => exact absurd ((h m x).1 hk).2 hG
    | error e =>
      simp only [hG, false_and, and_false, iff_false]
      intro e; cases e

theorem Tests.pure : Tests (Pure.pure () : CM w Unit) True := by
  intro m r
  show Except.ok ((), m) = .ok r ↔ _
  simp [eq_comm]

theorem Tests.stop (f : Fn) : Tests (CE.stop f : CM w Unit) False := by
  intro m r
  simp [CE.stop]

theorem tests_form (a : Int) : Tests (within (Ptr.form A a) : CM w Unit) (A.lo ≤ a ∧ a ≤ A.hi) := by
  intro m r
  rw [within_ok]
  unfold Ptr.form
  split <;> simp [*, eq_comm]

theorem tests_elem (a : Int) : Tests (elem A a : CM w Unit) (A.lo ≤ a ∧ a < A.hi) := by
  intro m r
  unfold elem
  rw [within_ok]
  unfold Ptr.deref
  split <;> simp [*, eq_comm]

theorem tests_place {a : BitIter w} {p : Int} (h : a.Valid ∧ a.addr = o + p) : Tests (place A a) (A.lo * w ≤ o + p ∧ o + p < A.hi * w + w) := by
  rw [← h.2]
  have := word_of (b := a.base) A.lo A.hi h.1
  show Tests _ (A.lo * w ≤ a.base * w + a.pos ∧ a.base * w + a.pos < A.hi * w + w)
  rw [← this.1, ← this.2.1]
  exact tests_form _

theorem tests_word {a : BitIter w} {p : Int} (h : a.Valid ∧ a.addr = o + p) : Tests (elem A a.base : CM w Unit) (A.lo * w ≤ o + p ∧ o + p < A.hi * w) := by
  rw [← h.2]
  have := word_of (b := a.base) A.lo A.hi h.1
  show Tests _ (A.lo * w ≤ a.base * w + a.pos ∧ a.base * w + a.pos < A.hi * w)
  rw [← this.1, ← this.2.2]
  exact tests_elem _

theorem tests_ref {a : BitRef w} {p : Int} (h : a.At (o + p)) : Tests (elem A a.ptr : CM w Unit) (A.lo * w ≤ o + p ∧ o + p < A.hi * w) := by
  obtain ⟨q, hq, _, e⟩ := h
  have := word_of (b := a.ptr) A.lo A.hi hq
  rw [e, ← this.1, ← this.2.2]
  exact tests_elem _

theorem tests_ptr {x : Except UB (BitPtr w)} {p : Int} (h : ∃ b, x = .ok b ∧ b.At (o + p)) : Tests (ptrTo A x) (A.lo * w ≤ o + p ∧ o + p < A.hi * w + w) := by
  obtain ⟨b, rfl, q, hq, _, e⟩ := h
  have := word_of (b := b.ref.ptr) A.lo A.hi hq
  rw [e, ← this.1, ← this.2.1]
  exact tests_form _

theorem tests_check (S : ShiftSem w) (bi : Bool) {s : Slots (BitIter w) (BitRef w) (BitPtr w)} {t : Slots Int Int Int} (h : SlotsAt o s t) (op : IOp) :
    Tests (check A S bi s op) (op.Keeps w A o t) := by
  have add1 : ∀ (n : Int) (a : BitIter w) (p : Int), a.Valid ∧ a.addr = o + p → (a.add n).Valid ∧ (a.add n).addr = o + p + n := by
    rintro n a p ⟨h1, h2⟩
    have := C01_iterator_arithmetic a h1 n
    exact ⟨this.1, by rw [this.2.1, h2]⟩
  have sub1 : ∀ (n : Int) (a : BitIter w) (p : Int), a.Valid ∧ a.addr = o + p → (a.sub n).Valid ∧ (a.sub n).addr = o + p + -n := by
    rintro n a p ⟨h1, h2⟩
    have := C01_iterator_arithmetic a h1 n
    exact ⟨this.2.2.2.1, by rw [this.2.2.2.2.1, h2]; omega⟩
  have inc1 : ∀ (a : BitIter w) (p : Int), a.Valid ∧ a.addr = o + p → a.inc.Valid ∧ a.inc.addr = o + p + 1 := by
    rintro a p ha
    rw [(C01_iterator_arithmetic a ha.1 1).2.2.2.2.2.2.2.2.1]
    exact add1 1 a p ha
  have dec1 : ∀ (a : BitIter w) (p : Int), a.Valid ∧ a.addr = o + p → a.dec.Valid ∧ a.dec.addr = o + p + -1 := by
    rintro a p ha
    rw [(C01_iterator_arithmetic a ha.1 1).2.2.2.2.2.2.2.2.2]
    exact sub1 1 a p ha
  have z : ∀ p : Int, o + p = o + p + 0 := fun p => by omega
  cases op with
  | addIt _ i n | addAssignIt i n => exact .use (h.it i) fun a p ha => tests_place (add1 n a p ha)
  | subIt _ i n | subAssignIt i n => exact .use (h.it i) fun a p ha => tests_place (sub1 n a p ha)
  | incIt i | postIncIt _ i => exact .use (h.it i) fun a p ha => tests_place (inc1 a p ha)
  | decIt i | postDecIt _ i => exact .use (h.it i) fun a p ha => tests_place (dec1 a p ha)
  | derefIt _ i | arrowIt _ i => exact .use (h.it i) fun a p ha => tests_word ⟨ha.1, by rw [ha.2]; exact z p⟩
  | indexIt _ i n => exact .use (h.it i) fun a p ha => tests_word (add1 n a p ha)
  | read r | upd _ r => exact .use (h.ref r) fun a p ha => tests_ref (z p ▸ ha)
  | assign r q => exact .bind (.use (h.ref q) fun a p ha => tests_ref (z p ▸ ha)) (.use (h.ref r) fun a p ha => tests_ref (z p ▸ ha))
  | addPtr _ k n | indexPtr _ k n => exact .use (h.ptr k) fun a p ha => tests_ptr (C05_add_sub S bi a _ ha n).1
  | subPtr _ k n => exact .use (h.ptr k) fun a p ha => tests_ptr (C05_add_sub S bi a _ ha n).2.1
  | incPtr k | postIncPtr _ k =>
    refine .use (h.ptr k) fun a p ha => tests_ptr ?_
    obtain ⟨x, h1, h2, _⟩ := (C05_inc_dec S bi a _ ha).1
    exact ⟨x, h1, h2⟩
  | decPtr k | postDecPtr _ k =>
    refine .use (h.ptr k) fun a p ha => tests_ptr ?_
    obtain ⟨x, h1, h2, _⟩ := (C05_inc_dec S bi a _ ha).2
    exact ⟨x, h1, h2⟩
  | swap _ _ | swapVal _ _ | distance _ _ => exact .stop _
  | copyIt _ _ | diffIt _ _ | cmpIt _ _ _ | copyRef _ _ | addressOf _ _ | copyPtr _ _ | diffPtr _ _ | cmpPtr _ _ _ | derefPtr _ _ => exact .pure

theorem client_iff {α : Type} (S : ShiftSem w) (bi : Bool) (c : Client α) {s : Slots (BitIter w) (BitRef w) (BitPtr w)} {t : Slots Int Int Int} (h : SlotsAt o s t)
    (m : Mem w) (tape : Tape) (ht : TapeIs o m tape) (r : (α × Slots (BitIter w) (BitRef w) (BitPtr w)) × Mem w) :
    client A S bi c s m = .ok r ↔ c.code S bi s m = .ok r ∧ c.Keeps w A o t tape := by
  induction c generalizing s t m tape with
  | done x =>
    show Except.ok ((x, s), m) = .ok r ↔ Except.ok ((x, s), m) = .ok r ∧ True
    simp
  | call op next ih =>
    have hc := tests_check (A := A) S bi h op
    have hsim := sim_op (F := True) S bi op h m tape ⟨fun p b hb => (ht p).symm.trans hb, fun _ => ht⟩
    show (check A S bi s op m >>= fun u => (within (Ptr.up (op.run (ub .badRange) (codeIface S bi) s)) u.2 >>= fun r => client A S bi (next r.1.2) r.1.1 r.2 : Except KStop _) : Except KStop _) = .ok r ↔
      (op.run (ub .badRange) (codeIface S bi) s m >>= fun r => (next r.1.2).code S bi r.1.1 r.2 : Except UB _) = .ok r ∧ op.Keeps w A o t ∧ _
    by_cases hk : op.Keeps w A o t
    · rw [(hc m ((), m)).2 ⟨rfl, hk⟩]
      show (within (Ptr.up (op.run (ub .badRange) (codeIface S bi) s)) m >>= fun r => client A S bi (next r.1.2) r.1.1 r.2 : Except KStop _) = .ok r ↔ _
      cases hi : op.run (fun _ => .error .badRange) idealIface t tape with
      | error e =>
        rw [hi] at hsim
        have hx := hsim trivial
        have hw : within (Ptr.up (op.run (ub .badRange) (codeIface S bi) s)) m = .error (.step (.ub e)) := by
          unfold within Ptr.up
          rw [hx]
        rw [hx, hw]
        constructor
        · intro e; cases e
        · rintro ⟨e, _⟩; cases e
      | ok y =>
        obtain ⟨⟨t', ans⟩, tape'⟩ := y
        rw [hi] at hsim
        obtain ⟨⟨s', ans'⟩, m', hx, ⟨hs', ha⟩, ht', _⟩ := hsim
        simp only at ha
        subst ha
        rw [hx, (within_up _ _ _).2 hx]
        show client A S bi (next ans') s' m' = .ok r ↔ (next ans').code S bi s' m' = .ok r ∧ _
        rw [ih ans' hs' m' tape' (ht'.2 trivial)]
        refine and_congr_right fun _ => ⟨fun hn => ⟨hk, fun t1 a1 tp1 e => ?_⟩, fun hn => hn.2 _ _ _ rfl⟩
        cases e
        exact hn
    · simp only [hk, false_and, and_false, iff_false]
      cases hm : check A S bi s op m with
      | error e => intro e; cases e
      | ok u => exact absurd ((hc m u).1 hm).2 hk

end CE
end BitLib
