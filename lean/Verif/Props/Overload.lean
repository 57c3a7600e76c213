import Verif.Model.Overload
/-
C86: `linear_overload` calls "the first valid call of an overload set".
-/
namespace BitLib.Overload
variable {β : Type}

/-- The function can be called. It is called as an lvalue. -/
def Func.Valid (f : Func β) : Prop := (f.result .lvalue).isSome

/-- The function can be called as an lvalue if and only if it can as an rvalue, or is held by reference. -/
def Func.Plain (f : Func β) : Prop := f.byRef = true ∨ (f.result .rvalue).isSome = (f.result .lvalue).isSome

/-- Position `i` holds the first function of the list with `p`. -/
def First (fs : List (Func β)) (p : Func β → Prop) (i : Nat) (f : Func β) : Prop :=
  fs[i]? = some f ∧ p f ∧ ∀ j, j < i → ∀ g, fs[j]? = some g → ¬ p g

/-- The probed call is well-formed. -/
def Func.Probed (f : Func β) : Prop := (f.result f.probeCat).isSome

theorem call_eq (fs : List (Func β)) (N : Nat) (hN : N ≤ fs.length) (h : ∀ j, j < N → ∀ g, fs[j]? = some g → ¬ g.Probed) :
    (∃ i f, First fs Func.Probed i f ∧ call fs N = (match f.result .lvalue with | some r => .called i r | none => .illFormed)) ∨
      ((∀ f ∈ fs, ¬ f.Probed) ∧ call fs N = .nothing) := by
  induction hk : fs.length - N generalizing N with
  | zero =>
    right
    constructor
    · intro f hf
      obtain ⟨j, hj, rfl⟩ := List.getElem_of_mem hf
      exact h j (by omega) _ (List.getElem?_eq_getElem hj)
    · rw [call, dif_neg (by omega)]
  | succ k ih =>
    have hlt : N < fs.length := by omega
    rw [call, dif_pos hlt]
    dsimp only
    cases hp : (fs[N]).result (fs[N]).probeCat with
    | some x =>
      left
      refine ⟨N, fs[N], ⟨List.getElem?_eq_getElem hlt, by unfold Func.Probed; rw [hp]; rfl, h⟩, ?_⟩
      rfl
    | none =>
      refine ih (N + 1) (by omega) ?_ (by omega)
      intro j hj g hg
      rcases Nat.lt_succ_iff_lt_or_eq.1 hj with hj | rfl
      · exact h j hj g hg
      · rw [List.getElem?_eq_getElem hlt] at hg
        cases hg
        unfold Func.Probed
        rw [hp]
        simp

theorem First.unique {fs : List (Func β)} {p : Func β → Prop} {i j : Nat} {f g : Func β} (h1 : First fs p i f) (h2 : First fs p j g) :
    i = j ∧ f = g := by
  have : i = j := by
    rcases Nat.lt_trichotomy i j with h | h | h
    · exact absurd h1.2.1 (h2.2.2 i h f h1.1)
    · exact h
    · exact absurd h2.2.1 (h1.2.2 j h g h2.1)
  subst this
  have := h1.1.symm.trans h2.1
  exact ⟨rfl, by simpa using this⟩

theorem Func.Plain.probed {f : Func β} (h : f.Plain) : f.Probed ↔ f.Valid := by
  unfold Func.Probed Func.Valid Func.probeCat
  rcases h with h | h
  · rw [h]; rfl
  · split
    · rfl
    · rw [h]

end BitLib.Overload

namespace BitLib
open BitLib.Overload
variable {β : Type}

/-- C86: exactly when is a function called, is none called, and does the call not compile. -/
theorem C86_exact (fs : List (Func β)) :
    (∀ i r, call fs 0 = .called i r ↔ ∃ f, First fs Func.Probed i f ∧ f.result .lvalue = some r) ∧
      (call fs 0 = .nothing ↔ ∀ f ∈ fs, ¬ f.Probed) ∧
      (call fs 0 = .illFormed ↔ ∃ i f, First fs Func.Probed i f ∧ ¬ f.Valid) := by
  rcases call_eq fs 0 (Nat.zero_le _) (fun j hj => absurd hj (by omega)) with ⟨i, f, hf, e⟩ | ⟨h, e⟩
  · rw [e]
    have hmem : f ∈ fs := List.mem_of_getElem? hf.1
    cases hr : f.result .lvalue with
    | some r =>
      refine ⟨fun i' r' => ⟨?_, ?_⟩, ⟨fun h => by simp at h, fun h => absurd hf.2.1 (h f hmem)⟩, ⟨fun h => by simp at h, ?_⟩⟩
      · intro h
        simp only [Outcome.called.injEq] at h
        obtain ⟨rfl, rfl⟩ := h
        exact ⟨f, hf, hr⟩
      · rintro ⟨g, hg, h⟩
        obtain ⟨rfl, rfl⟩ := hf.unique hg
        rw [hr] at h
        rw [Option.some.inj h]
      · rintro ⟨j, g, hg, h⟩
        obtain ⟨rfl, rfl⟩ := hf.unique hg
        unfold Func.Valid at h
        rw [hr] at h
        exact absurd rfl h
    | none =>
      refine ⟨fun i' r' => ⟨fun h => by simp at h, ?_⟩, ⟨fun h => by simp at h, fun h => absurd hf.2.1 (h f hmem)⟩, ⟨fun _ => ?_, fun _ => rfl⟩⟩
      · rintro ⟨g, hg, h⟩
        obtain ⟨rfl, rfl⟩ := hf.unique hg
        rw [hr] at h
        cases h
      · exact ⟨i, f, hf, by unfold Func.Valid; rw [hr]; simp⟩
  · rw [e]
    refine ⟨fun i r => ⟨fun h => by simp at h, ?_⟩, ⟨fun _ => h, fun _ => rfl⟩, ⟨fun h => by simp at h, ?_⟩⟩
    · rintro ⟨f, hf, -⟩
      exact absurd hf.2.1 (h f (List.mem_of_getElem? hf.1))
    · rintro ⟨i, f, hf, -⟩
      exact absurd hf.2.1 (h f (List.mem_of_getElem? hf.1))

/-- C86: for functions whose call operator does not depend on the value category, the first one that can be called is called, and a call
that none of them accepts compiles and does nothing. -/
theorem C86_first_partial (fs : List (Func β)) (hp : ∀ f ∈ fs, f.Plain) :
    (∀ i f r, First fs Func.Valid i f → f.result .lvalue = some r → call fs 0 = .called i r) ∧
      ((∀ f ∈ fs, ¬ f.Valid) → call fs 0 = .nothing) ∧ call fs 0 ≠ .illFormed := by
  have key : ∀ i f, First fs Func.Valid i f ↔ First fs Func.Probed i f := by
    intro i f
    constructor
    · rintro ⟨h1, h2, h3⟩
      exact ⟨h1, (hp f (List.mem_of_getElem? h1)).probed.2 h2, fun j hj g hg h => h3 j hj g hg ((hp g (List.mem_of_getElem? hg)).probed.1 h)⟩
    · rintro ⟨h1, h2, h3⟩
      exact ⟨h1, (hp f (List.mem_of_getElem? h1)).probed.1 h2, fun j hj g hg h => h3 j hj g hg ((hp g (List.mem_of_getElem? hg)).probed.2 h)⟩
  refine ⟨fun i f r h hr => ((C86_exact fs).1 i r).2 ⟨f, (key i f).1 h, hr⟩, fun h => (C86_exact fs).2.1.2 fun f hf hx => h f hf ((hp f hf).probed.1 hx), ?_⟩
  intro h
  obtain ⟨i, f, hf, hv⟩ := (C86_exact fs).2.2.1 h
  exact hv ((hp f (List.mem_of_getElem? hf.1)).probed.1 hf.2.1)

/-- C86: a function that can only be called as an lvalue is passed over although the call would be valid; one that can only be called as an
rvalue is selected and the call does not compile, although a later function would accept it. -/
theorem C86_ref_qualified :
    ∃ (onlyL onlyR both : Func Nat), onlyL.Valid ∧ both.Valid ∧ call [onlyL, both] 0 = .called 1 7 ∧ call [onlyL] 0 = .nothing ∧
      call [onlyR, both] 0 = .illFormed :=
  ⟨⟨false, fun | .lvalue => some 3 | .rvalue => none⟩, ⟨false, fun | .lvalue => none | .rvalue => some 3⟩, ⟨false, fun _ => some 7⟩, rfl, rfl,
    by simp [call, Func.probeCat, Func.callCat], by simp [call, Func.probeCat], by simp [call, Func.probeCat, Func.callCat]⟩

/-- C86: `size()` and `max_size()` are the number of functions; `empty()` says that there is none, and then no call does anything. -/
theorem C86_size (fs : List (Func β)) :
    Overload.size fs = fs.length ∧ maxSize fs = fs.length ∧ (Overload.empty fs = true ↔ fs = []) ∧ (Overload.empty fs = true → call fs 0 = .nothing) := by
  have h : Overload.empty fs = true ↔ fs = [] := by cases fs <;> simp [Overload.empty]
  exact ⟨rfl, rfl, h, fun he => (C86_exact fs).2.1.2 (by rw [h.1 he]; simp)⟩

/-! ### Example: the second of three functions is the first that takes these arguments -/

example : call [⟨false, fun _ => none⟩, ⟨true, fun | .lvalue => some 5 | .rvalue => none⟩, ⟨false, fun _ => some 9⟩] 0 = Outcome.called 1 5 := by
  refine (C86_first_partial _ ?_).1 1 ⟨true, fun | .lvalue => some 5 | .rvalue => none⟩ 5 ⟨rfl, rfl, ?_⟩ rfl
  · intro f hf
    simp only [List.mem_cons, List.not_mem_nil, or_false] at hf
    rcases hf with rfl | rfl | rfl
    · exact .inr rfl
    · exact .inl rfl
    · exact .inr rfl
  · intro j hj g hg
    obtain rfl : j = 0 := by omega
    cases hg
    simp [Func.Valid]

end BitLib
