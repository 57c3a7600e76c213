import Verif.SpecThreads
import Verif.Lemmas.Iso
import Mathlib.Algebra.BigOperators.Group.Finset.Basic
import Mathlib.Data.Fintype.Basic
import Mathlib.Tactic.Tauto
/- Interleaving of code. -/
namespace BitLib
variable {w : Nat} {α : Type}
open Classical in
/-- The memory reduced to the words `A`. -/
noncomputable def only (A : Int → Prop) (m : Mem w) : Mem w := fun a => if A a then m a else none

namespace Code

/-- Executed without interruption from `m`, the code accesses only words of `A`. -/
def Within (A : Int → Prop) : Code w α → Mem w → Prop
  | ret _, _ => True
  | stop _, _ => True
  | load a k, m => A a ∧ ∀ x, m a = some x → (k x).Within A m
  | store a x k, m => A a ∧ k.Within A (m.set a x)

/-- The number of accesses when executed without interruption. -/
def steps : Code w α → Mem w → Nat
  | ret _, _ => 0
  | stop _, _ => 0
  | load a k, m => match m a with
    | some x => (k x).steps m + 1
    | none => 1
  | store a x k, m => k.steps (m.set a x) + 1

theorem run_load_some {a : Int} {k : BitVec w → Code w α} {m : Mem w} {x : BitVec w} (h : m a = some x) :
    (load a k).run m = (k x).run m := by
  show (BitLib.load a >>= fun x => (k x).run) m = _
  rw [run_bind_ok' (a := x) (m' := m)]
  unfold BitLib.load; rw [h]

theorem run_load_none {a : Int} {k : BitVec w → Code w α} {m : Mem w} (h : m a = none) :
    (load a k).run m = .error .outOfBounds := by
  show ((BitLib.load a : M w _) m >>= fun p => (k p.1).run p.2) = _
  unfold BitLib.load; rw [h]; rfl

theorem run_store_some {a : Int} {y : BitVec w} {k : Code w α} {m : Mem w} {x : BitVec w} (h : m a = some x) :
    (store a y k).run m = k.run (m.set a y) := by
  show (BitLib.store a y >>= fun _ => k.run) m = _
  rw [run_bind_ok' (a := ()) (m' := m.set a y)]
  unfold BitLib.store; rw [h]

theorem run_store_none {a : Int} {y : BitVec w} {k : Code w α} {m : Mem w} (h : m a = none) :
    (store a y k).run m = .error .outOfBounds := by
  show ((BitLib.store a y : M w _) m >>= fun p => k.run p.2) = _
  unfold BitLib.store; rw [h]; rfl

theorem only_set (A : Int → Prop) (m : Mem w) (a : Int) (x : BitVec w) (ha : A a) : (only A m).set a x = only A (m.set a x) := by
  funext b
  unfold only Mem.set
  by_cases hb : b = a
  · subst hb; rw [if_pos rfl, if_pos ha, if_pos rfl]
  · rw [if_neg hb, if_neg hb]

/-- Code that runs to completion in a memory that has only the words `A` accesses only these. -/
theorem within_of_run (A : Int → Prop) (c : Code w α) : ∀ (m : Mem w) (r : α) (m1 : Mem w), c.run (only A m) = .ok (r, m1) → c.Within A m := by
  induction c with
  | ret a => intros; trivial
  | stop e => intros; trivial
  | load a k ih =>
    intro m r m1 h
    by_cases ha : A a
    · refine ⟨ha, fun x hx => ?_⟩
      rw [run_load_some (x := x) (by unfold only; rw [if_pos ha, hx])] at h
      exact ih x m r m1 h
    · rw [run_load_none (by unfold only; rw [if_neg ha])] at h
      exact absurd h (by simp)
  | store a x k ih =>
    intro m r m1 h
    by_cases ha : A a
    · refine ⟨ha, ?_⟩
      rcases hx : m a with _ | y
      · rw [run_store_none (by unfold only; rw [if_pos ha, hx])] at h
        exact absurd h (by simp)
      · rw [run_store_some (x := y) (by unfold only; rw [if_pos ha, hx]), only_set A m a x ha] at h
        exact ih _ r m1 h
    · rw [run_store_none (by unfold only; rw [if_neg ha])] at h
      exact absurd h (by simp)

/-- One access in a memory that agrees with the private one on the words of the thread. -/
theorem next_good {A : Int → Prop} {c : Code w α} {m M : Mem w} {r : α} {mf : Mem w} (hr : c.run m = .ok (r, mf)) (hw : c.Within A m)
    (hM : ∀ a, A a → M a = m a) {c' : Code w α} {M' : Mem w} (hn : c.next M = some (c', M')) :
    ∃ m', c'.run m' = .ok (r, mf) ∧ c'.Within A m' ∧ (∀ a, A a → M' a = m' a) ∧ c.steps m = c'.steps m' + 1 ∧
      (∀ b, c'.Stores b → c.Stores b) ∧ (∀ b, ¬ (c.Stores b ∧ A b) → M' b = M b ∧ m' b = m b) := by
  cases c with
  | ret a => cases hn
  | stop e => cases hn
  | load a k =>
    obtain ⟨ha, hk⟩ := hw
    rcases hx : m a with _ | x
    · rw [run_load_none hx] at hr; exact absurd hr (by simp)
    · have hMx : M a = some x := by rw [hM a ha, hx]
      simp only [next, hMx, Option.some.injEq, Prod.mk.injEq] at hn
      obtain ⟨rfl, rfl⟩ := hn
      rw [run_load_some hx] at hr
      refine ⟨m, hr, hk x hx, hM, ?_, fun b hb => .load a k x hb, fun b _ => ⟨rfl, rfl⟩⟩
      conv_lhs => unfold steps
      rw [hx]
  | store a x k =>
    obtain ⟨ha, hk⟩ := hw
    rcases hx : m a with _ | y
    · rw [run_store_none hx] at hr; exact absurd hr (by simp)
    · have hMx : M a = some y := by rw [hM a ha, hx]
      simp only [next, hMx, Option.some.injEq, Prod.mk.injEq] at hn
      obtain ⟨rfl, rfl⟩ := hn
      rw [run_store_some hx] at hr
      refine ⟨m.set a x, hr, hk, ?_, rfl, fun b hb => .store a x k hb, ?_⟩
      · intro b hb
        unfold Mem.set
        by_cases h : b = a
        · rw [if_pos h, if_pos h]
        · rw [if_neg h, if_neg h, hM b hb]
      · intro b hb
        have h : b ≠ a := by
          rintro rfl
          exact hb ⟨.here b x k, ha⟩
        unfold Mem.set
        rw [if_neg h, if_neg h]
        exact ⟨rfl, rfl⟩

/-- A word that is not stored to keeps its value. -/
theorem run_unstored {b : Int} (c : Code w α) : ∀ (m : Mem w) (r : α) (mf : Mem w), c.run m = .ok (r, mf) → ¬ c.Stores b → mf b = m b := by
  induction c with
  | ret a =>
    intro m r mf h _
    have h : (Except.ok (a, m) : Except UB _) = .ok (r, mf) := h
    simp only [Except.ok.injEq, Prod.mk.injEq] at h
    rw [h.2]
  | stop e => intro m r mf h _; exact absurd h (by simp [run, ub])
  | load a k ih =>
    intro m r mf h hs
    rcases hx : m a with _ | x
    · rw [run_load_none hx] at h; exact absurd h (by simp)
    · rw [run_load_some hx] at h
      exact ih x m r mf h (fun hb => hs (.load a k x hb))
  | store a x k ih =>
    intro m r mf h hs
    rcases hx : m a with _ | y
    · rw [run_store_none hx] at h; exact absurd h (by simp)
    · rw [run_store_some hx] at h
      rw [ih _ r mf h (fun hb => hs (.store a x k hb))]
      have : b ≠ a := by rintro rfl; exact hs (.here _ _ _)
      unfold Mem.set
      rw [if_neg this]

theorem next_some_of_access {c : Code w α} {a : Int} {b : Bool} (h : c.access = some (a, b)) (m : Mem w) : ∃ c' m', c.next m = some (c', m') := by
  cases c with
  | ret a => cases h
  | stop e => cases h
  | load a k => rcases h : m a with _ | x <;> simp [next, h]
  | store a x k => rcases h : m a with _ | y <;> simp [next, h]

theorem access_within {A : Int → Prop} {c : Code w α} {m : Mem w} {a : Int} {b : Bool} (hw : c.Within A m) (h : c.access = some (a, b)) : A a := by
  cases c with
  | ret a => cases h
  | stop e => cases h
  | load a' k => simp only [access, Option.some.injEq, Prod.mk.injEq] at h; rw [← h.1]; exact hw.1
  | store a' x k => simp only [access, Option.some.injEq, Prod.mk.injEq] at h; rw [← h.1]; exact hw.1

theorem access_stores {c : Code w α} {a : Int} (h : c.access = some (a, true)) : c.Stores a := by
  cases c with
  | ret a => cases h
  | stop e => cases h
  | load a' k => simp [access] at h
  | store a' x k => simp only [access, Option.some.injEq, Prod.mk.injEq, and_true] at h; rw [← h]; exact .here _ _ _

theorem steps_zero {c : Code w α} {m mf : Mem w} {r : α} (hr : c.run m = .ok (r, mf)) (h : c.steps m = 0) : c = .ret r ∧ m = mf := by
  cases c with
  | ret a =>
    have : (Except.ok (a, m) : Except UB _) = .ok (r, mf) := hr
    simp only [Except.ok.injEq, Prod.mk.injEq] at this
    exact ⟨by rw [this.1], this.2⟩
  | stop e => exact absurd hr (by simp [run, ub])
  | load a k => unfold steps at h; rcases hx : m a with _ | x <;> rw [hx] at h <;> simp at h
  | store a x k => simp [steps] at h

theorem access_of_steps {c : Code w α} {m mf : Mem w} {r : α} (hr : c.run m = .ok (r, mf)) (h : c.steps m ≠ 0) :
    ∃ a b, c.access = some (a, b) := by
  cases c with
  | ret a => exact absurd rfl h
  | stop e => exact absurd hr (by simp [run, ub])
  | load a k => exact ⟨_, _, rfl⟩
  | store a x k => exact ⟨_, _, rfl⟩

end Code

section
open Code
variable {ι : Type} [Fintype ι] [DecidableEq ι] {β : ι → Type}

/-- What is known in the middle of an execution. `m i` is the memory as thread `i` would see it if it had run alone. -/
structure TInv (A : ι → Int → Prop) (c : (i : ι) → Code w (β i)) (m : Mem w) (r : (i : ι) → β i) (mf : ι → Mem w) (N n : Nat)
    (s : Threads w β) (pm : ι → Mem w) : Prop where
  run : ∀ i, (s.1 i).run (pm i) = .ok (r i, mf i)
  within : ∀ i, (s.1 i).Within (A i) (pm i)
  agree : ∀ i a, A i a → s.2 a = pm i a
  stores : ∀ i b, (s.1 i).Stores b → (c i).Stores b
  rest : ∀ a, (∀ i, ¬ ((c i).Stores a ∧ A i a)) → s.2 a = m a
  count : n + (∑ i, (s.1 i).steps (pm i)) = N

theorem TInv.step {A : ι → Int → Prop} {c : (i : ι) → Code w (β i)} {m : Mem w} {r : (i : ι) → β i} {mf : ι → Mem w} {N n : Nat}
    {s t : Threads w β} {pm : ι → Mem w} (hap : ∀ i j, i ≠ j → ∀ a, (c i).Stores a → A i a → ¬ A j a) (h : TInv A c m r mf N n s pm)
    (hst : Step s t) : ∃ pm', TInv A c m r mf N (n + 1) t pm' := by
  obtain ⟨i, c', hn, ht⟩ := hst
  obtain ⟨m', h1, h2, h3, h4, h5, h6⟩ := next_good (h.run i) (h.within i) (h.agree i) hn
  have hsame : ∀ j, j ≠ i → t.1 j = s.1 j := fun j hj => by rw [ht, Function.update_of_ne hj]
  have hi : t.1 i = c' := by rw [ht, Function.update_self]
  refine ⟨Function.update pm i m', ?_, ?_, ?_, ?_, ?_, ?_⟩
  · intro j
    by_cases hj : j = i
    · subst hj; rw [hi, Function.update_self]; exact h1
    · rw [hsame j hj, Function.update_of_ne hj]; exact h.run j
  · intro j
    by_cases hj : j = i
    · subst hj; rw [hi, Function.update_self]; exact h2
    · rw [hsame j hj, Function.update_of_ne hj]; exact h.within j
  · intro j a ha
    by_cases hj : j = i
    · subst hj; rw [Function.update_self]; exact h3 a ha
    · rw [Function.update_of_ne hj, ← h.agree j a ha]
      exact (h6 a (fun hb => hap i j (Ne.symm hj) a (h.stores i a hb.1) hb.2 ha)).1
  · intro j b hb
    by_cases hj : j = i
    · subst hj; rw [hi] at hb; exact h.stores j b (h5 b hb)
    · rw [hsame j hj] at hb; exact h.stores j b hb
  · intro a ha
    rw [← h.rest a ha]
    exact (h6 a (fun hb => ha i ⟨h.stores i a hb.1, hb.2⟩)).1
  · rw [← h.count, ← Finset.add_sum_erase _ _ (Finset.mem_univ i), ← Finset.add_sum_erase _ (fun j => (s.1 j).steps (pm j)) (Finset.mem_univ i)]
    have : ∑ x ∈ Finset.univ.erase i, (t.1 x).steps (Function.update pm i m' x) = ∑ x ∈ Finset.univ.erase i, (s.1 x).steps (pm x) := by
      apply Finset.sum_congr rfl
      intro j hj
      have hj := Finset.ne_of_mem_erase hj
      rw [hsame j hj, Function.update_of_ne hj]
    rw [this, hi, Function.update_self, h4]
    omega

theorem TInv.exec {A : ι → Int → Prop} {c : (i : ι) → Code w (β i)} {m : Mem w} {r : (i : ι) → β i} {mf : ι → Mem w} {N : Nat}
    (hap : ∀ i j, i ≠ j → ∀ a, (c i).Stores a → A i a → ¬ A j a) {s : Threads w β} {pm : ι → Mem w} (h : TInv A c m r mf N 0 s pm) :
    ∀ n t, Exec n s t → ∃ pm', TInv A c m r mf N n t pm' := by
  intro n
  induction n with
  | zero => intro t ht; cases ht; exact ⟨pm, h⟩
  | succ n ih =>
    rintro t ⟨u, hu, hut⟩
    obtain ⟨pm', h'⟩ := ih u hu
    exact h'.step hap hut

omit [DecidableEq ι] in
theorem TInv.noRace {A : ι → Int → Prop} {c : (i : ι) → Code w (β i)} {m : Mem w} {r : (i : ι) → β i} {mf : ι → Mem w} {N n : Nat}
    {s : Threads w β} {pm : ι → Mem w} (hap : ∀ i j, i ≠ j → ∀ a, (c i).Stores a → A i a → ¬ A j a) (h : TInv A c m r mf N n s pm) :
    ¬ Race s := by
  rintro ⟨i, j, a, b, hij, hi, hj⟩
  exact hap i j hij a (h.stores i a (access_stores hi)) (access_within (h.within i) hi) (access_within (h.within j) hj)

omit [DecidableEq ι] in
theorem TInv.noUndef {A : ι → Int → Prop} {c : (i : ι) → Code w (β i)} {m : Mem w} {r : (i : ι) → β i} {mf : ι → Mem w} {N n : Nat}
    {s : Threads w β} {pm : ι → Mem w} (h : TInv A c m r mf N n s pm) : ¬ Undef s := by
  rintro ⟨i, e, hi⟩
  have := h.run i
  rw [hi] at this
  exact absurd this (by simp [Code.run, ub])

theorem TInv.progress {A : ι → Int → Prop} {c : (i : ι) → Code w (β i)} {m : Mem w} {r : (i : ι) → β i} {mf : ι → Mem w} {N n : Nat}
    {s : Threads w β} {pm : ι → Mem w} (h : TInv A c m r mf N n s pm) (hn : n < N) : ∃ t, Step s t := by
  have : ∑ i, (s.1 i).steps (pm i) ≠ 0 := by have := h.count; omega
  obtain ⟨i, -, hi⟩ := Finset.exists_ne_zero_of_sum_ne_zero this
  obtain ⟨a, b, hab⟩ := access_of_steps (h.run i) hi
  obtain ⟨c', m', hc⟩ := next_some_of_access hab s.2
  exact ⟨(Function.update s.1 i c', m'), i, c', hc, rfl⟩

omit [DecidableEq ι] in
theorem TInv.final {A : ι → Int → Prop} {c : (i : ι) → Code w (β i)} {m : Mem w} {r : (i : ι) → β i} {mf : ι → Mem w} {N : Nat}
    {s : Threads w β} {pm : ι → Mem w} (h : TInv A c m r mf N N s pm) : Done s r ∧ (∀ i a, A i a → s.2 a = mf i a) ∧
      ∀ a, (∀ i, ¬ ((c i).Stores a ∧ A i a)) → s.2 a = m a := by
  have h0 : ∑ i, (s.1 i).steps (pm i) = 0 := by have := h.count; omega
  have hz : ∀ i, (s.1 i).steps (pm i) = 0 := fun i => (Finset.sum_eq_zero_iff.mp h0) i (Finset.mem_univ i)
  refine ⟨fun i => (steps_zero (h.run i) (hz i)).1, fun i a ha => ?_, h.rest⟩
  rw [h.agree i a ha, (steps_zero (h.run i) (hz i)).2]

end

section
variable {α β : Type}

theorem Exec.cons {ι : Type} [DecidableEq ι] {γ : ι → Type} {s u : Threads w γ} (h : Step s u) : ∀ n t, Exec n u t → Exec (n + 1) s t := by
  intro n
  induction n with
  | zero => intro t ht; cases ht; exact ⟨s, rfl, h⟩
  | succ n ih => rintro t ⟨v, hv, hvt⟩; exact ⟨v, ih v hv, hvt⟩

theorem Exec.trans {ι : Type} [DecidableEq ι] {γ : ι → Type} {s u : Threads w γ} {k : Nat} (h : Exec k s u) :
    ∀ n t, Exec n u t → Exec (k + n) s t := by
  intro n
  induction n with
  | zero => intro t ht; cases ht; exact h
  | succ n ih => rintro t ⟨v, hv, hvt⟩; exact ⟨v, ih v hv, hvt⟩

theorem duo_step_left {c c' : Code w α} (d : Code w β) {m m' : Mem w} (h : c.next m = some (c', m')) : Step (duo c d, m) (duo c' d, m') := by
  refine ⟨false, c', h, ?_⟩
  funext b
  cases b
  · exact (Function.update_self (f := duo c d) _ _).symm
  · exact (Function.update_of_ne (β := fun i => Code w (Two α β i)) (f := duo c d) (a := true) (a' := false) (by decide) c').symm

theorem duo_step_right (c : Code w α) {d d' : Code w β} {m m' : Mem w} (h : d.next m = some (d', m')) : Step (duo c d, m) (duo c d', m') := by
  refine ⟨true, d', h, ?_⟩
  funext b
  cases b
  · exact (Function.update_of_ne (β := fun i => Code w (Two α β i)) (f := duo c d) (a := false) (a' := true) (by decide) d').symm
  · exact (Function.update_self (f := duo c d) _ _).symm

/-- Code that works with one word and changes it comes to a store of this word. -/
theorem first_store {k : Int} (d : Code w β) (c : Code w α) : ∀ (m : Mem w) (r : α) (mf : Mem w), c.run m = .ok (r, mf) →
    c.Within (fun a => a = k) m → mf k ≠ m k → ∃ n c1, Exec n (duo c d, m) (duo c1 d, m) ∧ c1.access = some (k, true) := by
  induction c with
  | ret a =>
    intro m r mf h _ hne
    have h : (Except.ok (a, m) : Except UB _) = .ok (r, mf) := h
    simp only [Except.ok.injEq, Prod.mk.injEq] at h
    exact absurd (by rw [h.2]) hne
  | stop e => intro m r mf h _ _; exact absurd h (by simp [Code.run, ub])
  | load a g ih =>
    intro m r mf h hw hne
    rcases hx : m a with _ | x
    · rw [Code.run_load_none hx] at h; exact absurd h (by simp)
    · rw [Code.run_load_some hx] at h
      obtain ⟨n, c1, h1, h2⟩ := ih x m r mf h (hw.2 x hx) hne
      exact ⟨n + 1, c1, Exec.cons (duo_step_left d (by simp [Code.next, hx])) _ _ h1, h2⟩
  | store a x g _ =>
    intro m r mf _ hw _
    have : a = k := hw.1
    subst this
    exact ⟨0, _, rfl, rfl⟩

end
end BitLib
