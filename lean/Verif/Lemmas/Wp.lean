import Verif.Spec
/-
Weakest preconditions for the monad `M w`, and memory operations seen through `bitAt`.
-/
namespace BitLib

variable {w : Nat} {α β : Type}

/-- `x` started in `m` ends without undefined behaviour in a result satisfying `Q`. -/
def wp (x : M w α) (m : Mem w) (Q : α → Mem w → Prop) : Prop :=
  ∃ a m', x m = .ok (a, m') ∧ Q a m'

theorem wp_pure {a : α} {m : Mem w} {Q : α → Mem w → Prop} : wp (pure a) m Q ↔ Q a m := by
  constructor
  · rintro ⟨b, m', h, hQ⟩
    cases h
    exact hQ
  · intro h
    exact ⟨a, m, rfl, h⟩

theorem wp_bind {x : M w α} {f : α → M w β} {m : Mem w} {Q : β → Mem w → Prop} :
    wp (x >>= f) m Q ↔ wp x m (fun a m' => wp (f a) m' Q) := by
  constructor
  · rintro ⟨b, m2, h, hQ⟩
    have h' : (Except.bind (x m) fun p => f p.1 p.2) = .ok (b, m2) := h
    cases hx : x m with
    | error e => rw [hx] at h'; cases h'
    | ok p =>
      rw [hx] at h'
      exact ⟨p.1, p.2, hx, b, m2, h', hQ⟩
  · rintro ⟨a, m1, hx, b, m2, hf, hQ⟩
    refine ⟨b, m2, ?_, hQ⟩
    show (Except.bind (x m) fun p => f p.1 p.2) = .ok (b, m2)
    rw [hx]
    exact hf

theorem wp_map {x : M w α} {f : α → β} {m : Mem w} {Q : β → Mem w → Prop} :
    wp (f <$> x) m Q ↔ wp x m (fun a m' => Q (f a) m') := by
  have : (f <$> x) = (x >>= fun a => pure (f a)) := by
    rw [bind_pure_comp]
  rw [this, wp_bind]
  simp only [wp_pure]

theorem wp_mono {x : M w α} {m : Mem w} {Q R : α → Mem w → Prop}
    (h : wp x m Q) (hQR : ∀ a m', Q a m' → R a m') : wp x m R := by
  obtain ⟨a, m', hx, hQ⟩ := h
  exact ⟨a, m', hx, hQR a m' hQ⟩

theorem wp_lift {e : Except UB α} {m : Mem w} {Q : α → Mem w → Prop} :
    wp (lift e) m Q ↔ ∃ a, e = .ok a ∧ Q a m := by
  constructor
  · rintro ⟨a, m', h, hQ⟩
    cases e with
    | error u => cases h
    | ok b => cases h; exact ⟨_, rfl, hQ⟩
  · rintro ⟨a, rfl, hQ⟩
    exact ⟨a, m, rfl, hQ⟩

theorem wp_lift_ok {a : α} {m : Mem w} {Q : α → Mem w → Prop} :
    wp (lift (.ok a)) m Q ↔ Q a m := by
  rw [wp_lift]
  constructor
  · rintro ⟨b, h, hQ⟩; cases h; exact hQ
  · intro h; exact ⟨a, rfl, h⟩

theorem wp_assert {c : Prop} [Decidable c] {m : Mem w} {Q : Unit → Mem w → Prop} :
    wp (assertM c) m Q ↔ c ∧ Q () m := by
  unfold assertM
  by_cases h : c
  · simp [h, wp_pure]
  · simp only [h, if_false, false_and, iff_false]
    rintro ⟨a, m', hx, _⟩
    cases hx

theorem wp_load {a : Int} {m : Mem w} {Q : BitVec w → Mem w → Prop} :
    wp (load a) m Q ↔ ∃ x, m a = some x ∧ Q x m := by
  unfold wp load
  constructor
  · rintro ⟨x, m', h, hQ⟩
    cases hm : m a with
    | none => simp [hm] at h
    | some y =>
      simp only [hm] at h
      cases h
      exact ⟨x, rfl, hQ⟩
  · rintro ⟨x, hm, hQ⟩
    exact ⟨x, m, by simp [hm], hQ⟩

theorem wp_store {a : Int} {x : BitVec w} {m : Mem w} {Q : Unit → Mem w → Prop} :
    wp (store a x) m Q ↔ (∃ y, m a = some y) ∧ Q () (m.set a x) := by
  unfold wp store
  constructor
  · rintro ⟨u, m', h, hQ⟩
    cases hm : m a with
    | none => simp [hm] at h
    | some y =>
      simp only [hm] at h
      cases h
      exact ⟨⟨y, rfl⟩, hQ⟩
  · rintro ⟨⟨y, hm⟩, hQ⟩
    exact ⟨(), m.set a x, by simp [hm], hQ⟩

theorem wp_ite {c : Prop} [Decidable c] {x y : M w α} {m : Mem w} {Q : α → Mem w → Prop} :
    wp (if c then x else y) m Q ↔ (c → wp x m Q) ∧ (¬ c → wp y m Q) := by
  by_cases h : c <;> simp [h]

/-! ### `bitAt` -/

theorem ediv_of_word {w : Nat} (b : Int) (p : Nat) (hp : p < w) :
    (b * (w : Int) + (p : Int)) / (w : Int) = b := by
  have hw : (0 : Int) < w := by omega
  rw [Int.add_comm, Int.add_mul_ediv_right _ _ (by omega), Int.ediv_eq_zero_of_lt (by omega) (by omega)]
  omega

theorem emod_of_word {w : Nat} (b : Int) (p : Nat) (hp : p < w) :
    (b * (w : Int) + (p : Int)) % (w : Int) = p := by
  rw [Int.add_comm, Int.add_mul_emod_self_right, Int.emod_eq_of_lt (by omega) (by omega)]

theorem bitAt_word (m : Mem w) (b : Int) (p : Nat) (hp : p < w) :
    bitAt m (b * (w : Int) + (p : Int)) = (m b).map fun x => x.getLsbD p := by
  unfold bitAt
  rw [ediv_of_word b p hp, emod_of_word b p hp]
  simp

theorem word_decomp (hw : 0 < w) (i : Int) :
    ∃ b : Int, ∃ p : Nat, p < w ∧ i = b * (w : Int) + (p : Int) := by
  refine ⟨i / w, (i % w).toNat, ?_, ?_⟩
  · have := Int.emod_lt_of_pos i (b := (w : Int)) (by omega)
    have := Int.emod_nonneg i (b := (w : Int)) (by omega)
    omega
  · have := Int.emod_nonneg i (b := (w : Int)) (by omega)
    have h := Int.mul_ediv_add_emod i w
    rw [Int.mul_comm] at h
    omega

theorem base_lt_mul {w : Nat} {a b : Int} (h : a < b) : a * (w : Int) + w ≤ b * w := by
  have h1 : (a + 1) * (w : Int) ≤ b * w := Int.mul_le_mul_of_nonneg_right (by omega) (by omega)
  rw [Int.add_mul, Int.one_mul] at h1
  exact h1

theorem base_le_mul {w : Nat} {a b : Int} (h : a ≤ b) : a * (w : Int) ≤ b * w :=
  Int.mul_le_mul_of_nonneg_right h (by omega)

/-- Which word a bit address belongs to. -/
theorem base_eq_of_mem {w : Nat} {a b : Int} {p : Nat} (hp : p < w)
    (h1 : a * (w : Int) ≤ b * w + p) (h2 : b * (w : Int) + p < a * w + w) : b = a := by
  rcases Int.lt_trichotomy a b with h | h | h
  · have := base_lt_mul (w := w) h; omega
  · exact h.symm
  · have := base_lt_mul (w := w) h; omega

theorem bitAt_set (hw : 0 < w) (m : Mem w) (a : Int) (x : BitVec w) (i : Int) :
    bitAt (m.set a x) i =
      if a * (w : Int) ≤ i ∧ i < a * (w : Int) + w then some (x.getLsbD (i - a * (w : Int)).toNat)
      else bitAt m i := by
  obtain ⟨b, p, hp, rfl⟩ := word_decomp hw i
  rw [bitAt_word _ _ _ hp, bitAt_word _ _ _ hp]
  unfold Mem.set
  split
  · rename_i h
    subst h
    rw [if_pos (by omega)]
    simp
    congr 1
    omega
  · rename_i h
    rw [if_neg]
    rintro ⟨h1, h2⟩
    exact h (base_eq_of_mem hp h1 h2)

theorem mapped_word (hw : 0 < w) {m : Mem w} {a : Int} {i : Int}
    (h1 : a * (w : Int) ≤ i) (h2 : i < a * (w : Int) + w) (h : (bitAt m i).isSome) :
    ∃ x, m a = some x := by
  obtain ⟨b, p, hp, rfl⟩ := word_decomp hw i
  have := base_eq_of_mem hp h1 h2
  subst this
  rw [bitAt_word _ _ _ hp] at h
  simpa [Option.isSome_iff_exists] using h

/-- `load` through `bitAt`: some bit of the word is mapped; the result is the word's bits. -/
theorem wp_load_bits (hw : 0 < w) {a : Int} {m : Mem w} {Q : BitVec w → Mem w → Prop}
    (i : Int) (h1 : a * (w : Int) ≤ i) (h2 : i < a * (w : Int) + w) (hm : (bitAt m i).isSome)
    (hQ : ∀ x, (∀ p : Nat, p < w → bitAt m (a * (w : Int) + p) = some (x.getLsbD p)) → Q x m) :
    wp (load a) m Q := by
  rw [wp_load]
  obtain ⟨x, hx⟩ := mapped_word hw h1 h2 hm
  refine ⟨x, hx, hQ x ?_⟩
  intro p hp
  rw [bitAt_word _ _ _ hp, hx]
  rfl

/-- `store` through `bitAt`. -/
theorem wp_store_bits (hw : 0 < w) {a : Int} {x : BitVec w} {m : Mem w} {Q : Unit → Mem w → Prop}
    (i : Int) (h1 : a * (w : Int) ≤ i) (h2 : i < a * (w : Int) + w) (hm : (bitAt m i).isSome)
    (hQ : ∀ m', Wrote m m' (a * (w : Int)) (a * (w : Int) + w)
        (fun i => some (x.getLsbD (i - a * (w : Int)).toNat)) → Q () m') :
    wp (store a x) m Q := by
  rw [wp_store]
  refine ⟨mapped_word hw h1 h2 hm, hQ _ ?_⟩
  intro i
  exact bitAt_set hw m a x i

theorem wp_ok {x : M w α} {m : Mem w} {Q : α → Mem w → Prop} (h : wp x m Q) :
    ∃ a m', x m = .ok (a, m') ∧ Q a m' := h

/-- Two memories with the same bits are the same memory. -/
theorem mem_ext_bitAt (hw : 0 < w) {m m' : Mem w} (h : ∀ i, bitAt m' i = bitAt m i) : m' = m := by
  funext b
  have hb : ∀ p : Nat, p < w → (m' b).map (fun x => x.getLsbD p) = (m b).map (fun x => x.getLsbD p) := by
    intro p hp
    rw [← bitAt_word m' b p hp, ← bitAt_word m b p hp]
    exact h _
  have h0 := hb 0 hw
  cases h1 : m' b with
  | none => cases h2 : m b with
    | none => rfl
    | some y => rw [h1, h2] at h0; simp at h0
  | some x => cases h2 : m b with
    | none => rw [h1, h2] at h0; simp at h0
    | some y =>
      congr 1
      apply BitVec.eq_of_getLsbD_eq
      intro p hp
      have := hb p hp
      rw [h1, h2] at this
      simpa using this

/-! ### Runs that end in undefined behaviour -/

/-- The run ends in the given undefined behaviour. -/
def fails (x : M w α) (m : Mem w) (e : UB) : Prop := x m = .error e

theorem fails_bind_left {x : M w α} {f : α → M w β} {m : Mem w} {e : UB} (h : fails x m e) : fails (x >>= f) m e := by
  show (x m >>= fun p => f p.1 p.2) = _
  unfold fails at h
  rw [h]
  rfl

theorem fails_bind {x : M w α} {f : α → M w β} {m : Mem w} {e : UB} (h : wp x m fun a m' => fails (f a) m' e) :
    fails (x >>= f) m e := by
  obtain ⟨a, m', h1, h2⟩ := h
  show (x m >>= fun p => f p.1 p.2) = _
  rw [h1]
  exact h2

theorem fails_load {m : Mem w} {a : Int} (h : m a = none) : fails (load a) m .outOfBounds := by
  unfold fails load
  show (match m a with | some x => _ | none => _) = _
  rw [h]

end BitLib
