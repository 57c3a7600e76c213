import Verif.Lemmas.Pointers
import Verif.Lemmas.Iter
/- Programs that form no forbidden word iterator, and programs that always form one. -/
namespace BitLib

namespace Arr
variable {w : Nat} {A : Arr} {it : BitIter w}

theorem Has.valid (h : A.Has it) : it.Valid := h.1
theorem Has.lo_le (h : A.Has it) : A.lo * w ≤ it.addr := h.2.1
theorem Has.le_hi (h : A.Has it) : it.addr ≤ A.hi * w := h.2.2
theorem Has.pos_w (h : A.Has it) : 0 < w := Nat.lt_of_le_of_lt (Nat.zero_le _) h.1

theorem lt_of_mul {w : Nat} {a b : Int} (h : a * w < b * w) : a < b := Int.lt_of_mul_lt_mul_right h (by omega)
theorem le_of_mul {w : Nat} (hw : 0 < w) {a b : Int} (h : a * w ≤ b * w) : a ≤ b := Int.le_of_mul_le_mul_right h (by omega)
theorem mul_le {w : Nat} {a b : Int} (h : a ≤ b) : a * w ≤ b * w := Int.mul_le_mul_of_nonneg_right h (by omega)

theorem addr_eq (it : BitIter w) : it.addr = it.base * w + it.pos := rfl

theorem base_ge {b : Int} (hv : it.pos < w) (h : b * w ≤ it.addr) : b ≤ it.base := by
  have e : (it.base + 1) * w = it.base * w + w := by rw [Int.add_mul, Int.one_mul]
  have : b * w < (it.base + 1) * (w : Int) := by rw [e]; rw [addr_eq] at h; omega
  have := lt_of_mul this
  omega

theorem base_le (hw : 0 < w) {b : Int} (h : it.addr ≤ b * w) : it.base ≤ b := by
  refine le_of_mul hw ?_
  rw [addr_eq] at h
  omega

theorem base_lt {b : Int} (h : it.addr < b * w) : it.base < b := by
  refine lt_of_mul (w := w) ?_
  rw [addr_eq] at h
  omega

theorem base_mono (hv : it.pos < w) {a : BitIter w} (h : a.addr ≤ it.addr) : a.base ≤ it.base :=
  base_ge hv (by rw [addr_eq a] at h; omega)

theorem Has.lo_base (h : A.Has it) : A.lo ≤ it.base := base_ge h.1 h.2.1
theorem Has.base_hi (h : A.Has it) : it.base ≤ A.hi := base_le h.pos_w h.2.2
theorem Has.next {n : Int} (_ : A.Has it) (hn : 0 < n) (hh : it.addr + n ≤ A.hi * w) : it.base + 1 ≤ A.hi := base_lt (it := it) (by omega)
theorem Has.next_of_pos (h : A.Has it) (hp : it.pos ≠ 0) : it.base + 1 ≤ A.hi := by
  refine lt_of_mul (w := w) ?_
  have := h.le_hi
  rw [addr_eq] at this
  omega

theorem Has.next_of_lt {b : BitIter w} (_ : A.Has it) (hb : A.Has b) (hp : it.base < b.base) : it.base + 1 ≤ A.hi := by
  have := hb.base_hi
  omega

theorem Has.word {len : Nat} (h : A.Has it) (hh : it.addr + len ≤ A.hi * w) (hl : w - it.pos < len) : it.base + 1 ≤ A.hi := by
  have e : (it.base + 1) * w = it.base * w + w := by rw [Int.add_mul, Int.one_mul]
  have hv := h.1
  have : (it.base + 1) * (w : Int) < A.hi * w := by
    rw [e]
    rw [addr_eq] at hh
    omega
  have := lt_of_mul this
  omega

theorem Has.add {n : Int} (h : A.Has it) (h1 : A.lo * w ≤ it.addr + n) (h2 : it.addr + n ≤ A.hi * w) : A.Has (it.add n) := by
  have hw := h.pos_w
  have e := BitIter.add_addr hw it n
  exact ⟨BitIter.add_valid hw it n, by rw [← e] at h1; exact h1, by rw [← e] at h2; exact h2⟩

theorem Has.sub {n : Int} (h : A.Has it) (h1 : A.lo * w ≤ it.addr - n) (h2 : it.addr - n ≤ A.hi * w) : A.Has (it.sub n) := by
  rw [BitIter.sub_eq_add]
  exact h.add (by omega) (by omega)

end Arr

namespace Ptr
variable {w : Nat} {α β : Type}

/-- From every memory `p` does what `q` does, and the results have the property `Φ`. -/
def Fits (p : P w α) (q : M w α) (Φ : α → Prop) : Prop := ∀ m, Same (p m) (q m) ∧ ∀ r m', q m = .ok (r, m') → Φ r

theorem Fits.same {p : P w α} {q : M w α} {Φ : α → Prop} (h : Fits p q Φ) (m : Mem w) : Same (p m) (q m) := (h m).1

theorem f_up (q : M w α) : Fits (up q) q fun _ => True := by
  intro m
  refine ⟨?_, fun _ _ _ => trivial⟩
  unfold up Same
  cases q m <;> rfl
theorem f_upP {q : M w α} {Φ : α → Prop} (h : ∀ m r m', q m = .ok (r, m') → Φ r) : Fits (up q) q Φ :=
  fun m => ⟨(f_up q m).1, h m⟩
theorem f_pure {a : α} {Φ : α → Prop} (h : Φ a) : Fits (pure a : P w α) (pure a) Φ :=
  fun m => ⟨rfl, fun r m' e => by cases e; exact h⟩
theorem f_bind {p : P w α} {f : α → P w β} {q : M w α} {g : α → M w β} {Φ : α → Prop} {Ψ : β → Prop} (h1 : Fits p q Φ)
    (h2 : ∀ a, Φ a → Fits (f a) (g a) Ψ) : Fits (p >>= f) (q >>= g) Ψ := by
  intro m
  show Same ((p m >>= fun r => f r.1 r.2 : Except PStop _)) (q m >>= fun r => g r.1 r.2) ∧
    ∀ r m', (q m >>= fun r => g r.1 r.2 : Except UB _) = .ok (r, m') → Ψ r
  have h := (h1 m).1
  have hΦ := (h1 m).2
  unfold Same at h
  cases hq : q m with
  | error e =>
    rw [hq] at h
    simp only at h
    rw [h]
    exact ⟨rfl, fun _ _ h => nomatch h⟩
  | ok r =>
    rw [hq] at h
    simp only at h
    rw [h]
    exact h2 r.1 (hΦ r.1 r.2 hq) r.2
theorem f_bind' {p : P w α} {f : α → P w β} {q : M w α} {g : α → M w β} {Ψ : β → Prop} (h1 : Fits p q fun _ => True)
    (h2 : ∀ a, Fits (f a) (g a) Ψ) : Fits (p >>= f) (q >>= g) Ψ := f_bind h1 fun a _ => h2 a
theorem f_mono {p : P w α} {q : M w α} {Φ Ψ : α → Prop} (h : Fits p q Φ) (hi : ∀ a, Φ a → Ψ a) : Fits p q Ψ :=
  fun m => ⟨(h m).1, fun r m' e => hi r ((h m).2 r m' e)⟩
theorem form_ok {A : Arr} {a : Int} (h : A.lo ≤ a ∧ a ≤ A.hi) : (form A a : P w Unit) = pure () := by
  funext m
  unfold form
  rw [if_pos h]
  rfl
theorem deref_ok {A : Arr} {a : Int} (h : A.lo ≤ a ∧ a < A.hi) : (deref A a : P w Unit) = pure () := by
  funext m
  unfold deref
  rw [if_pos h]
  rfl
theorem f_form {A : Arr} {a : Int} {k : Unit → P w α} {q : M w α} {Φ : α → Prop} (hc : A.lo ≤ a ∧ a ≤ A.hi) (h : Fits (k ()) q Φ) :
    Fits (form A a >>= k) q Φ := by
  rw [form_ok hc]
  exact h
theorem f_deref {A : Arr} {a : Int} {k : Unit → P w α} {q : M w α} {Φ : α → Prop} (hc : A.lo ≤ a ∧ a < A.hi) (h : Fits (k ()) q Φ) :
    Fits (deref A a >>= k) q Φ := by
  rw [deref_ok hc]
  exact h
theorem f_add {A : Arr} {it : BitIter w} {n : Int} {k : BitIter w → P w α} {q : M w α} {Φ : α → Prop} (hc : A.Has (it.add n))
    (h : Fits (k (it.add n)) q Φ) : Fits (add A it n >>= k) q Φ := by
  unfold add
  rw [form_ok ⟨hc.lo_base, hc.base_hi⟩]
  exact h
theorem f_sub {A : Arr} {it : BitIter w} {n : Int} {k : BitIter w → P w α} {q : M w α} {Φ : α → Prop} (hc : A.Has (it.sub n))
    (h : Fits (k (it.sub n)) q Φ) : Fits (sub A it n >>= k) q Φ := by
  unfold sub
  rw [form_ok ⟨hc.lo_base, hc.base_hi⟩]
  exact h
theorem f_add0 {A : Arr} {it : BitIter w} {n : Int} {Φ : BitIter w → Prop} (hc : A.Has (it.add n)) (h : Φ (it.add n)) :
    Fits (add A it n) (pure (it.add n)) Φ := by
  unfold add
  rw [form_ok ⟨hc.lo_base, hc.base_hi⟩]
  exact f_pure h
theorem f_sub0 {A : Arr} {it : BitIter w} {n : Int} {Φ : BitIter w → Prop} (hc : A.Has (it.sub n)) (h : Φ (it.sub n)) :
    Fits (sub A it n) (pure (it.sub n)) Φ := by
  unfold sub
  rw [form_ok ⟨hc.lo_base, hc.base_hi⟩]
  exact f_pure h
theorem f_ite {c : Prop} [Decidable c] {p p' : P w α} {q q' : M w α} {Φ : α → Prop} (h1 : c → Fits p q Φ) (h2 : ¬c → Fits p' q' Φ) :
    Fits (if c then p else p') (if c then q else q') Φ := by
  split
  · exact h1 (by assumption)
  · exact h2 (by assumption)

/-! ### Programs that always stop -/

/-- `p` completes from no memory. -/
def Stuck (p : P w α) : Prop := ∀ m r, p m ≠ .ok r

theorem s_form {A : Arr} {a : Int} {k : Unit → P w α} (h : ¬(A.lo ≤ a ∧ a ≤ A.hi) ∨ Stuck (k ())) : Stuck (form A a >>= k) := by
  by_cases hc : A.lo ≤ a ∧ a ≤ A.hi
  · rw [form_ok hc]
    exact h.resolve_left (fun h => h hc)
  · intro m r e
    have : (form A a >>= k) m = .error (.pointer A a) := by
      show (form A a m >>= fun r => k r.1 r.2 : Except PStop _) = _
      unfold form
      rw [if_neg hc]
      rfl
    rw [this] at e
    cases e
theorem s_deref {A : Arr} {a : Int} {k : Unit → P w α} (h : ¬(A.lo ≤ a ∧ a < A.hi) ∨ Stuck (k ())) : Stuck (deref A a >>= k) := by
  by_cases hc : A.lo ≤ a ∧ a < A.hi
  · rw [deref_ok hc]
    exact h.resolve_left (fun h => h hc)
  · intro m r e
    have : (deref A a >>= k) m = .error (.pointer A a) := by
      show (deref A a m >>= fun r => k r.1 r.2 : Except PStop _) = _
      unfold deref
      rw [if_neg hc]
      rfl
    rw [this] at e
    cases e
theorem s_left {p : P w α} {k : α → P w β} (h : Stuck p) : Stuck (p >>= k) := by
  intro m r e
  change (p m >>= fun r => k r.1 r.2 : Except PStop _) = _ at e
  cases hp : p m with
  | error x => rw [hp] at e; cases e
  | ok x => exact h m x hp
theorem s_bind {p : P w α} {q : M w α} {Φ : α → Prop} {k : α → P w β} (hp : Fits p q Φ) (h : ∀ a, Φ a → Stuck (k a)) : Stuck (p >>= k) := by
  intro m r e
  change (p m >>= fun r => k r.1 r.2 : Except PStop _) = _ at e
  have hs := (hp m).1
  unfold Same at hs
  cases hq : q m with
  | error x =>
    rw [hq] at hs
    simp only at hs
    rw [hs] at e
    cases e
  | ok x =>
    rw [hq] at hs
    simp only at hs
    rw [hs] at e
    exact h x.1 ((hp m).2 x.1 x.2 hq) x.2 r e
theorem s_bind' {p : P w α} {q : M w α} {k : α → P w β} (hp : Fits p q fun _ => True) (h : ∀ a, Stuck (k a)) : Stuck (p >>= k) :=
  s_bind hp fun a _ => h a
theorem s_add {A : Arr} {it : BitIter w} {n : Int} {k : BitIter w → P w α} (h : ¬(A.lo ≤ (it.add n).base ∧ (it.add n).base ≤ A.hi) ∨ Stuck (k (it.add n))) :
    Stuck (add A it n >>= k) := by
  unfold add
  have e : ((do form A (it.add n).base; pure (it.add n)) >>= k : P w α) = (form A (it.add n).base >>= fun _ => k (it.add n)) := by
    rw [bind_assoc]
    simp only [pure_bind]
  rw [e]
  exact s_form h
theorem s_sub {A : Arr} {it : BitIter w} {n : Int} {k : BitIter w → P w α} (h : ¬(A.lo ≤ (it.sub n).base ∧ (it.sub n).base ≤ A.hi) ∨ Stuck (k (it.sub n))) :
    Stuck (sub A it n >>= k) := by
  unfold sub
  have e : ((do form A (it.sub n).base; pure (it.sub n)) >>= k : P w α) = (form A (it.sub n).base >>= fun _ => k (it.sub n)) := by
    rw [bind_assoc]
    simp only [pure_bind]
  rw [e]
  exact s_form h

/-- A program that always stops and stops like the model or at a forbidden iterator stops there whenever the model completes. -/
theorem Stuck.bad {p : P w α} {q : M w α} (h : Stuck p) (hu : Under p q) (m : Mem w) {r : α × Mem w} (hq : q m = .ok r) : Bad (p m) := by
  rcases hu m with hb | hs
  · exact hb
  · unfold Same at hs
    rw [hq] at hs
    exact absurd hs (h m r)

end Ptr
end BitLib
