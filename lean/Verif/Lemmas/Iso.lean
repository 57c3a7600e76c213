import Verif.SpecIso
import Verif.Lemmas.Wp
import Mathlib.Tactic.Tauto
/- Rules for `Isolated`. -/
namespace BitLib
variable {w : Nat} {α β : Type}

/-- `p` is isolated when it writes `eff m` to the bits `W` and nothing else, where `eff m` on `W` and the result (characterised by
`Post m`) depend on the bits `R` only. -/
theorem isolated_of {p : M w α} {R W : Int → Prop} [DecidablePred W] (Post : Mem w → α → Prop) (eff : Mem w → Int → Option Bool)
    (h : ∀ m, (∀ i, R i ∨ W i → (bitAt m i).isSome) → ∃ r m', p m = .ok (r, m') ∧ Post m r ∧
      ∀ i, bitAt m' i = if W i then eff m i else bitAt m i)
    (hsome : ∀ m, (∀ i, R i ∨ W i → (bitAt m i).isSome) → ∀ i, W i → (eff m i).isSome)
    (hres : ∀ m1 m2 r1 r2, (∀ i, R i → bitAt m1 i = bitAt m2 i) → Post m1 r1 → Post m2 r2 → r1 = r2)
    (heff : ∀ m1 m2, (∀ i, R i → bitAt m1 i = bitAt m2 i) → ∀ i, W i → eff m1 i = eff m2 i) : Isolated p R W := by
  intro m1 m2 hm hR
  obtain ⟨r1, m1', h1, p1, e1⟩ := h m1 (fun i hi => (hm i hi).1)
  obtain ⟨r2, m2', h2, p2, e2⟩ := h m2 (fun i hi => (hm i hi).2)
  have := hres m1 m2 r1 r2 hR p1 p2
  subst this
  refine ⟨r1, m1', m2', h1, h2, ?_, ?_⟩
  · intro i hi
    rw [e1, e2, if_pos hi, if_pos hi]
    exact ⟨hsome m1 (fun i hi => (hm i hi).1) i hi, heff m1 m2 hR i hi⟩
  · intro i hi
    rw [e1, e2, if_neg hi, if_neg hi]
    exact ⟨rfl, rfl⟩

/-- A program that only reads. -/
theorem isolated_of_read {p : M w α} {R : Int → Prop} (Post : Mem w → α → Prop)
    (h : ∀ m, (∀ i, R i → (bitAt m i).isSome) → ∃ r, p m = .ok (r, m) ∧ Post m r)
    (hres : ∀ m1 m2 r1 r2, (∀ i, R i → bitAt m1 i = bitAt m2 i) → Post m1 r1 → Post m2 r2 → r1 = r2) : Isolated p R NoBits := by
  intro m1 m2 hm hR
  obtain ⟨r1, h1, p1⟩ := h m1 (fun i hi => (hm i (Or.inl hi)).1)
  obtain ⟨r2, h2, p2⟩ := h m2 (fun i hi => (hm i (Or.inl hi)).2)
  have := hres m1 m2 r1 r2 hR p1 p2
  subst this
  exact ⟨r1, m1, m2, h1, h2, fun i hi => hi.elim, fun i _ => ⟨rfl, rfl⟩⟩

/-- A program that runs like an isolated one is isolated. -/
theorem Isolated.congr {p q : M w α} {R W : Int → Prop} (h : Isolated p R W)
    (heq : ∀ m, (∀ i, R i ∨ W i → (bitAt m i).isSome) → q m = p m) : Isolated q R W := by
  intro m1 m2 hm hR
  rw [heq m1 (fun i hi => (hm i hi).1), heq m2 (fun i hi => (hm i hi).2)]
  exact h m1 m2 hm hR

theorem Isolated.pure (r : α) : Isolated (pure r : M w α) NoBits NoBits :=
  fun m1 m2 _ _ => ⟨r, m1, m2, rfl, rfl, fun _ h => h.elim, fun _ _ => ⟨rfl, rfl⟩⟩

theorem run_bind_ok' {x : M w α} {f : α → M w β} {m m' : Mem w} {a : α} (h : x m = .ok (a, m')) :
    (x >>= f) m = f a m' := by
  show (x m >>= fun p => f p.1 p.2) = _
  rw [h]; rfl

theorem Isolated.bind {p : M w α} {f : α → M w β} {R1 W1 R2 W2 : Int → Prop} (hp : Isolated p R1 W1)
    (hf : ∀ a, Isolated (f a) R2 W2) : Isolated (p >>= f) (Either R1 (Minus R2 W1)) (Either W1 W2) := by
  classical
  intro m1 m2 hm hR
  have hall : ∀ i, R1 i ∨ W1 i ∨ R2 i ∨ W2 i → (bitAt m1 i).isSome ∧ (bitAt m2 i).isSome := by
    intro i hi
    apply hm
    unfold Either Minus
    tauto
  obtain ⟨a, m1', m2', h1, h2, hW, hN⟩ := hp m1 m2 (fun i hi => hall i (by tauto)) (fun i hi => hR i (Or.inl hi))
  have hall' : ∀ i, R1 i ∨ W1 i ∨ R2 i ∨ W2 i → (bitAt m1' i).isSome ∧ (bitAt m2' i).isSome := by
    intro i hi
    by_cases hw : W1 i
    · rw [← (hW i hw).2]; exact ⟨(hW i hw).1, (hW i hw).1⟩
    · rw [(hN i hw).1, (hN i hw).2]; exact hall i hi
  obtain ⟨b, m1'', m2'', h1', h2', hW', hN'⟩ := hf a m1' m2' (fun i hi => hall' i (by tauto)) (by
    intro i hi
    by_cases hw : W1 i
    · exact (hW i hw).2
    · rw [(hN i hw).1, (hN i hw).2]
      exact hR i (Or.inr ⟨hi, hw⟩))
  refine ⟨b, m1'', m2'', by rw [run_bind_ok' h1, h1'], by rw [run_bind_ok' h2, h2'], ?_, ?_⟩
  · intro i hi
    by_cases hw2 : W2 i
    · exact hW' i hw2
    · have hw1 : W1 i := hi.resolve_right hw2
      rw [(hN' i hw2).1, (hN' i hw2).2]
      exact hW i hw1
  · intro i hi
    have hw1 : ¬ W1 i := fun h => hi (Or.inl h)
    have hw2 : ¬ W2 i := fun h => hi (Or.inr h)
    rw [(hN' i hw2).1, (hN' i hw2).2, (hN i hw1).1, (hN i hw1).2]
    exact ⟨rfl, rfl⟩

/-- Weakening: a program may be regarded as working with more bits (the additional written bits have to be among the read ones, since
they keep their values). -/
theorem Isolated.mono {p : M w α} {R W R' W' : Int → Prop} (h : Isolated p R W) (hR : ∀ i, R i → R' i) (hW : ∀ i, W i → W' i)
    (hWR : ∀ i, W' i → W i ∨ R' i) : Isolated p R' W' := by
  classical
  intro m1 m2 hm hag
  obtain ⟨r, m1', m2', h1, h2, hw, hn⟩ := h m1 m2 (fun i hi => hm i (hi.imp (hR i) (hW i))) (fun i hi => hag i (hR i hi))
  refine ⟨r, m1', m2', h1, h2, ?_, fun i hi => hn i (fun h => hi (hW i h))⟩
  intro i hi
  by_cases hc : W i
  · exact hw i hc
  · rw [(hn i hc).1, (hn i hc).2]
    exact ⟨(hm i (Or.inr hi)).1, hag i ((hWR i hi).resolve_left hc)⟩

/-- Two isolated programs that do not write what the other reads or writes: the order does not matter. -/
theorem Isolated.comm (hw : 0 < w) {p : M w α} {q : M w β} {R1 W1 R2 W2 : Int → Prop} (hp : Isolated p R1 W1)
    (hq : Isolated q R2 W2) (h12 : Apart W1 R2) (h21 : Apart W2 R1) (hww : Apart W1 W2) (m : Mem w)
    (hm : ∀ i, R1 i ∨ W1 i ∨ R2 i ∨ W2 i → (bitAt m i).isSome) :
    ∃ a b mp mq m', p m = .ok (a, mp) ∧ q mp = .ok (b, m') ∧ q m = .ok (b, mq) ∧ p mq = .ok (a, m') := by
  classical
  obtain ⟨a0, mp, _, hp0, -, wp0, np0⟩ := hp m m (fun i hi => ⟨hm i (by tauto), hm i (by tauto)⟩) (fun _ _ => rfl)
  obtain ⟨b0, mq, _, hq0, -, wq0, nq0⟩ := hq m m (fun i hi => ⟨hm i (by tauto), hm i (by tauto)⟩) (fun _ _ => rfl)
  have smp : ∀ i, R1 i ∨ W1 i ∨ R2 i ∨ W2 i → (bitAt mp i).isSome := by
    intro i hi
    by_cases h : W1 i
    · exact (wp0 i h).1
    · rw [(np0 i h).1]; exact hm i hi
  have smq : ∀ i, R1 i ∨ W1 i ∨ R2 i ∨ W2 i → (bitAt mq i).isSome := by
    intro i hi
    by_cases h : W2 i
    · exact (wq0 i h).1
    · rw [(nq0 i h).1]; exact hm i hi
  obtain ⟨a, mp', mqp, h1, h2, w1, n1⟩ := hp m mq (fun i hi => ⟨hm i (by tauto), smq i (by tauto)⟩) (by
    intro i hi
    rw [(nq0 i (fun h => h21 i h hi)).1])
  obtain ⟨b, mq', mpq, h3, h4, w2, n2⟩ := hq m mp (fun i hi => ⟨hm i (by tauto), smp i (by tauto)⟩) (by
    intro i hi
    rw [(np0 i (fun h => h12 i h hi)).1])
  rw [hp0] at h1
  rw [hq0] at h3
  obtain ⟨rfl, rfl⟩ : a0 = a ∧ mp = mp' := by simpa using h1
  obtain ⟨rfl, rfl⟩ : b0 = b ∧ mq = mq' := by simpa using h3
  have hsame : mpq = mqp := by
    apply mem_ext_bitAt hw
    intro i
    by_cases hi1 : W1 i
    · rw [← (w1 i hi1).2, (n2 i (hww i hi1)).2]
    · rw [(n1 i hi1).2]
      by_cases hi2 : W2 i
      · exact (w2 i hi2).2.symm
      · rw [(n2 i hi2).1, (n2 i hi2).2, (n1 i hi1).1]
  subst hsame
  exact ⟨a0, b0, mp, mq, mpq, hp0, h4, hq0, h2⟩

end BitLib
