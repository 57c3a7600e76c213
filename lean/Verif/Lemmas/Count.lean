import Verif.Spec
import Mathlib.Tactic.SplitIfs
import Mathlib.Tactic.ByContra
/- Counting the bits with a given value in a range, and the memory changes that keep the count. -/
namespace BitLib
variable {w : Nat}

/-- Number of addresses in `[a, a+n)` at which `f` is `some v`. -/
def cntF (f : Int → Option Bool) (v : Bool) (a : Int) (n : Nat) : Nat :=
  (List.range n).countP fun i : Nat => decide (f (a + (i : Int)) = some v)

theorem countIn_eq_cntF (m : Mem w) (v : Bool) (a : Int) (n : Nat) : countIn m v a n = cntF (bitAt m) v a n := rfl

/-- 1 if `f` is `some v` at `i`. -/
def one? (b : Option Bool) (v : Bool) : Nat := if b = some v then 1 else 0

theorem cntF_zero (f : Int → Option Bool) (v : Bool) (a : Int) : cntF f v a 0 = 0 := rfl

theorem cntF_succ (f : Int → Option Bool) (v : Bool) (a : Int) (n : Nat) :
    cntF f v a (n + 1) = cntF f v a n + one? (f (a + n)) v := by
  unfold cntF one?
  rw [List.range_succ, List.countP_append]
  simp [List.countP_cons]

theorem cntF_add (f : Int → Option Bool) (v : Bool) (a : Int) (n k : Nat) :
    cntF f v a (n + k) = cntF f v a n + cntF f v (a + n) k := by
  induction k with
  | zero => simp [cntF_zero]
  | succ k ih =>
    rw [← Nat.add_assoc, cntF_succ, ih, cntF_succ, Nat.add_assoc]
    rw [show a + ((n + k : Nat) : Int) = a + n + k by push_cast; omega]

theorem cntF_congr {f g : Int → Option Bool} (v : Bool) (a : Int) (n : Nat)
    (h : ∀ i, a ≤ i → i < a + n → f i = g i) : cntF f v a n = cntF g v a n := by
  induction n with
  | zero => rfl
  | succ n ih =>
    rw [cntF_succ, cntF_succ, ih (fun i h1 h2 => h i h1 (by omega)), h (a + n) (by omega) (by omega)]

theorem cntF_shift {f g : Int → Option Bool} (v : Bool) (a b : Int) (n : Nat)
    (h : ∀ i : Int, 0 ≤ i → i < n → f (a + i) = g (b + i)) : cntF f v a n = cntF g v b n := by
  induction n with
  | zero => rfl
  | succ n ih =>
    rw [cntF_succ, cntF_succ, ih (fun i h1 h2 => h i h1 (by omega)), h n (by omega) (by omega)]

theorem cntF_succ_left (f : Int → Option Bool) (v : Bool) (a : Int) (n : Nat) :
    cntF f v a (n + 1) = one? (f a) v + cntF f v (a + 1) n := by
  rw [Nat.add_comm n 1, cntF_add, cntF_succ, cntF_zero]
  simp

theorem cntF_reverse (f g : Int → Option Bool) (v : Bool) (a b : Int) (n : Nat)
    (h : ∀ i : Int, 0 ≤ i → i < n → f (a + i) = g (b + n - 1 - i)) : cntF f v a n = cntF g v b n := by
  induction n generalizing a with
  | zero => rfl
  | succ n ih =>
    rw [cntF_succ_left, cntF_succ, Nat.add_comm]
    have h0 := h 0 (by omega) (by omega)
    rw [Int.add_zero] at h0
    rw [h0, ih (a + 1) (fun i h1 h2 => by
      have := h (i + 1) (by omega) (by omega)
      rw [show a + 1 + i = a + (i + 1) by omega, this]
      congr 1; omega)]
    rw [show b + ((n + 1 : Nat) : Int) - 1 - 0 = b + n by push_cast; omega]

/-- Changing `f` at one address of the range. -/
theorem cntF_update {f g : Int → Option Bool} (v : Bool) (a : Int) (n : Nat) (x : Int)
    (hx : a ≤ x ∧ x < a + n) (h : ∀ i, i ≠ x → g i = f i) :
    cntF g v a n + one? (f x) v = cntF f v a n + one? (g x) v := by
  obtain ⟨k, hk⟩ : ∃ k : Nat, x = a + k := ⟨(x - a).toNat, by omega⟩
  subst hk
  obtain ⟨r, hr⟩ : ∃ r : Nat, n = k + 1 + r := ⟨n - (k + 1), by omega⟩
  subst hr
  rw [cntF_add, cntF_add f, cntF_succ, cntF_succ,
    cntF_congr (f := g) (g := f) v a k (fun i h1 h2 => h i (by omega)),
    cntF_congr (f := g) (g := f) v (a + ((k + 1 : Nat) : Int)) r (fun i h1 h2 => h i (by push_cast at h1; omega))]
  omega

end BitLib
