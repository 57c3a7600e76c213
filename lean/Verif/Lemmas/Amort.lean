import Verif.Lemmas.Billed
import Verif.SpecAmort
import Verif.Props.Cost
import Verif.Props.Throw
import Verif.Lemmas.Keep
import Verif.Lemmas.BVec3
/- Bills of the members, with credit for later moves. -/
namespace BitLib
variable {w : Nat} {α β : Type}

/-- If `p` ends, it has made `n` accesses and `r` requests, where `Q` says which. -/
def Pays (p : K w α) (h : Heap w) (Q : α → Heap w → Nat → Nat → Prop) : Prop :=
  ∀ b x h' b', p (h, b) = .ok (x, (h', b')) → ∃ n r, b' = ⟨b.acc + n, b.req + r⟩ ∧ Q x h' n r

namespace Pays

theorem pure {a : α} {h : Heap w} {Q : α → Heap w → Nat → Nat → Prop} (hq : Q a h 0 0) : Pays (Pure.pure a) h Q := by
  rintro b x h' b' he
  cases he
  exact ⟨0, 0, rfl, hq⟩

theorem mono {p : K w α} {h : Heap w} {Q R : α → Heap w → Nat → Nat → Prop} (hp : Pays p h Q) (hq : ∀ a h' n r, Q a h' n r → R a h' n r) : Pays p h R := by
  intro b x h' b' he
  obtain ⟨n, r, h1, h2⟩ := hp b x h' b' he
  exact ⟨n, r, h1, hq _ _ _ _ h2⟩

theorem and {p : K w α} {h : Heap w} {Q R : α → Heap w → Nat → Nat → Prop} (hp : Pays p h Q) (hr : Pays p h R) :
    Pays p h fun a h' n r => Q a h' n r ∧ R a h' n r := by
  intro b x h' b' he
  obtain ⟨n, r, h1, h2⟩ := hp b x h' b' he
  obtain ⟨n', r', h3, h4⟩ := hr b x h' b' he
  rw [h1] at h3
  injection h3 with h5 h6
  obtain rfl : n = n' := by omega
  obtain rfl : r = r' := by omega
  exact ⟨n, r, h1, h2, h4⟩

theorem bind {p : K w α} {f : α → K w β} {h : Heap w} {Q : β → Heap w → Nat → Nat → Prop}
    (hp : Pays p h fun a h' n r => Pays (f a) h' fun y h'' n' r' => Q y h'' (n + n') (r + r')) : Pays (p >>= f) h Q := by
  intro b x h' b' he
  have he' : (Except.bind (p (h, b)) fun r => f r.1 r.2) = .ok (x, (h', b')) := he
  rcases hx : p (h, b) with e | ⟨a, h1, b1⟩
  · rw [hx] at he'; cases he'
  · rw [hx] at he'
    obtain ⟨n, r, e1, q⟩ := hp b a h1 b1 hx
    obtain ⟨n', r', e2, q'⟩ := q b1 x h' b' he'
    refine ⟨n + n', r + r', ?_, q'⟩
    rw [e2, e1]
    simp only [Nat.add_assoc]

theorem map {p : K w α} {g : α → β} {h : Heap w} {Q : β → Heap w → Nat → Nat → Prop} (hp : Pays p h fun a h' n r => Q (g a) h' n r) : Pays (g <$> p) h Q := by
  intro b x h' b' he
  have he' : (Except.bind (p (h, b)) fun r => Except.ok (g r.1, r.2)) = .ok (x, (h', b')) := he
  rcases hx : p (h, b) with e | ⟨a, h1, b1⟩
  · rw [hx] at he'; cases he'
  · rw [hx] at he'
    obtain ⟨n, r, e1, q⟩ := hp b a h1 b1 hx
    cases he'
    exact ⟨n, r, e1, q⟩

theorem step {acc req : Nat} {p : V w α} {h : Heap w} {Q : α → Heap w → Nat → Nat → Prop} (hq : ∀ a h', p h = .ok (a, h') → Q a h' acc req) :
    Pays (Billed.step acc req p) h Q := by
  intro b x h' b' he
  unfold Billed.step at he
  dsimp only at he
  rcases hx : p h with e | ⟨a, h1⟩
  · rw [hx] at he; cases he
  · rw [hx] at he
    cases he
    exact ⟨acc, req, rfl, hq _ _ hx⟩

theorem code {c : Code w α} {h : Heap w} {Q : α → Heap w → Nat → Nat → Prop}
    (hq : ∀ a m, c.run h.mem = .ok (a, m) → Q a { h with mem := m } (c.accesses h.mem) 0) : Pays (Billed.code c) h Q := by
  intro b x h' b' he
  unfold Billed.code at he
  dsimp only at he
  rcases hx : c.run h.mem with e | ⟨a, h1⟩
  · rw [hx] at he; cases he
  · rw [hx] at he
    cases he
    exact ⟨_, 0, rfl, hq _ _ hx⟩

theorem ite {c : Prop} [Decidable c] {p q : K w α} {h : Heap w} {Q : α → Heap w → Nat → Nat → Prop} (h1 : c → Pays p h Q) (h2 : ¬ c → Pays q h Q) :
    Pays (if c then p else q) h Q := by
  split
  · exact h1 ‹_›
  · exact h2 ‹_›

theorem lift {e : Except UB α} {h : Heap w} {Q : α → Heap w → Nat → Nat → Prop} (hq : ∀ a, e = .ok a → Q a h 0 0) :
    Pays (Billed.code (Gen.lift e)) h Q := by
  rcases e with e | a
  · rintro b x h' b' he; cases he
  · rintro b x h' b' he
    cases he
    exact ⟨0, 0, rfl, hq a rfl⟩

theorem distance {f l : BitIter w} {h : Heap w} {d : Int} {Q : Int → Heap w → Nat → Nat → Prop}
    (hd : BitLib.distance f l h.mem = .ok (d, h.mem)) (hq : Q d h 0 0) : Pays (Billed.code (Gen.distance f l)) h Q := by
  refine code fun a m he => ?_
  rw [Gen.r_distance] at he
  have he := he.symm.trans hd
  cases he
  have h0 : (Gen.distance f l : Code w Int).Bound (fun _ => True) 0 := by
    unfold Gen.distance Gen.assertViable
    rw [Gen.assertM_code]
    split
    · trivial
    · trivial
  have := h0.accesses h.mem
  rw [Nat.le_zero.1 this]
  exact hq

end Pays

/-- What is set aside for the next move of the words. -/
def Vec.credit (k : Nat) (v : Vec) : Nat := (2 * k + 2) * v.size - 2 * k * v.cap

theorem Vec.credit_le {k : Nat} {v : Vec} (h : v.size ≤ v.cap) : v.credit k ≤ 2 * v.size := by
  unfold Vec.credit
  have := Nat.mul_le_mul_left (2 * k) h
  rw [Nat.add_mul]
  omega

theorem Vec.credit_mono {k : Nat} {u v : Vec} (h1 : u.size ≤ v.size) (h2 : v.cap ≤ u.cap) : u.credit k ≤ v.credit k := by
  unfold Vec.credit
  have := Nat.mul_le_mul_left (2 * k) h2
  have := Nat.mul_le_mul_left (2 * k + 2) h1
  omega

theorem div_floor {k c : Nat} (hk : 0 < k) : c + 1 ≤ k * (c / k) + k := by
  have h1 := Nat.div_add_mod c k
  have h2 := Nat.mod_lt c hk
  omega

/-- Growing from `s` to `n` words. -/
theorem grow_credit {k s c n g : Nat} (hk : 0 < k) (hs : s ≤ c) (hn : c < n) (hg : c + c / k ≤ g) (hg' : n ≤ g) :
    2 * s + (n - s) + ((2 * k + 2) * n - 2 * k * g) ≤ (2 * k + 2) * s - 2 * k * c + (4 * k + 1) * (n - s) := by
  obtain ⟨j, rfl⟩ : ∃ j, n = s + j := ⟨n - s, by omega⟩
  have h1 := div_floor (c := c) hk
  have h2 : 2 * k * (c + c / k) ≤ 2 * k * g := Nat.mul_le_mul_left _ hg
  have h3 : 2 * k * (s + j) ≤ 2 * k * g := Nat.mul_le_mul_left _ hg'
  have h4 : 2 * k * (c + 1) ≤ 2 * k * (s + j) := Nat.mul_le_mul_left _ hn
  have h5 : k + j ≤ k * j + 1 := by
    obtain ⟨a, rfl⟩ : ∃ a, k = a + 1 := ⟨k - 1, by omega⟩
    obtain ⟨b, rfl⟩ : ∃ b, j = b + 1 := ⟨j - 1, by omega⟩
    rw [Nat.add_mul, Nat.mul_add]
    omega
  have h6 : 2 * k * s ≤ 2 * k * c := Nat.mul_le_mul_left _ hs
  simp only [Nat.mul_add, Nat.add_mul, Nat.add_sub_cancel_left, Nat.mul_assoc, Nat.mul_one, Nat.one_mul] at *
  generalize k * (c / k) = x at *
  generalize k * c = y at *
  generalize k * s = z at *
  generalize k * j = t at *
  generalize k * g = u at *
  omega

namespace Billed

theorem p_ensure {P : Policy} {v : Vec} {n : Nat} {h : Heap w} {Q : Vec → Heap w → Nat → Nat → Prop} (h1 : n ≤ v.cap → Q v h 0 0)
    (h2 : v.cap < n → ∀ p h', Q ⟨p, v.size, P.grow v.cap n⟩ h' (2 * v.size) 1) : Pays (ensure P v n) h Q := by
  refine .ite (fun hc => .pure (h1 hc)) fun hc => .step fun a h' he => ?_
  cases he
  exact h2 (by omega) _ _

/-- `resize` to more words. -/
theorem p_vecResize {k : Nat} {P : Policy} (hP : Grows k P) {v : Vec} {n : Nat} {h : Heap w} (hc : v.size ≤ v.cap) :
    Pays (vecResize P v n) h fun v' _ a _ => v'.size = n ∧ a + v'.credit k ≤ v.credit k + (4 * k + 1) * (n - v.size) := by
  refine .ite (fun hn => .step fun a h' he => ?_) fun hn => .bind (p_ensure (fun h1 => ?_) fun h1 p h' => ?_)
  · unfold Vec.resize at he
    rw [if_pos hn] at he
    cases he
    refine ⟨rfl, ?_⟩
    have := Vec.credit_mono (k := k) (u := { v with size := n }) (v := v) hn (Nat.le_refl _)
    omega
  · refine .step fun a h' he => ?_
    cases he
    refine ⟨rfl, ?_⟩
    unfold Vec.credit
    dsimp only
    obtain ⟨j, rfl⟩ : ∃ j, n = v.size + j := ⟨n - v.size, by omega⟩
    have hj : 1 * j ≤ k * j := Nat.mul_le_mul_right _ hP.1
    simp only [Nat.mul_add, Nat.add_mul, Nat.add_sub_cancel_left, Nat.mul_assoc, Nat.one_mul]
    generalize k * v.size = z
    generalize k * v.cap = y
    generalize k * j = t at *
    omega
  · refine .step fun a h' he => ?_
    cases he
    refine ⟨rfl, ?_⟩
    have := grow_credit hP.1 hc h1 (hP.2 v.cap n) (P.grow_ok v.cap n)
    unfold Vec.credit
    dsimp only
    omega

theorem p_vecPushBack {k : Nat} {P : Policy} (hP : Grows k P) {v : Vec} {x : BitVec w} {h : Heap w} (hc : v.size ≤ v.cap) :
    Pays (vecPushBack P v x) h fun v' _ a _ => v'.size = v.size + 1 ∧ a + v'.credit k ≤ v.credit k + (4 * k + 1) := by
  refine .bind (p_ensure (fun h1 => ?_) fun h1 p h' => ?_)
  · refine .step fun a h' he => ?_
    cases he
    refine ⟨rfl, ?_⟩
    have hk := hP.1
    unfold Vec.credit
    dsimp only
    simp only [Nat.mul_add, Nat.add_mul, Nat.mul_assoc]
    generalize k * v.size = z
    generalize k * v.cap = y
    omega
  · refine .step fun a h' he => ?_
    cases he
    refine ⟨rfl, ?_⟩
    have := grow_credit hP.1 hc h1 (hP.2 v.cap (v.size + 1)) (P.grow_ok v.cap (v.size + 1))
    unfold Vec.credit
    dsimp only
    rw [Nat.add_sub_cancel_left] at this
    omega

theorem wordsFor_zero (hw : 0 < w) : wordsFor w 0 = 0 := by
  unfold wordsFor
  exact Nat.div_eq_of_lt (by omega)

theorem wordsFor_one (hw : 0 < w) : wordsFor w 1 = 1 := by
  unfold wordsFor
  rw [show 1 + w - 1 = w by omega, Nat.div_self hw]

theorem wordCount_wordsFor {n : Nat} (hn : n < 2 ^ 32) : wordCount w n = wordsFor w n := by
  unfold wordCount wordsFor
  rw [Nat.mod_eq_of_lt hn]

/-- A vector with at least as many words as it needs, in storage that is large enough. -/
structure Fits (w : Nat) (v : BV) : Prop where
  cap : v.vec.size ≤ v.vec.cap
  fit : v.length ≤ v.vec.size * w

theorem p_room {k : Nat} {P : Policy} (hw : 0 < w) (hP : Grows k P) {v : BV} {h : Heap w} (hv : Fits w v) :
    Pays (room P v) h fun u _ a _ => u.size = v.vec.size + wordsFor w (v.length + 1 - v.vec.size * w) ∧
      a + u.credit k ≤ v.vec.credit k + (4 * k + 1) * wordsFor w (v.length + 1 - v.vec.size * w) := by
  have hf := hv.fit
  refine .ite (fun hc => ?_) fun hc => .pure ?_
  · rw [show v.length + 1 - v.vec.size * w = 1 by omega, wordsFor_one hw, Nat.mul_one]
    exact p_vecPushBack hP hv.cap
  · rw [show v.length + 1 - v.vec.size * w = 0 by omega, wordsFor_zero hw]
    exact ⟨rfl, by omega⟩

theorem p_growFor {k : Nat} {P : Policy} (hw : 0 < w) (hP : Grows k P) {v : BV} {c : Nat} {h : Heap w} (hv : Fits w v) (hc : v.length + c ≤ 2 ^ 24) :
    Pays (growFor P v c) h fun u _ a _ => u.size = v.vec.size + wordsFor w (v.length + c - v.vec.size * w) ∧
      a + u.credit k ≤ v.vec.credit k + (4 * k + 1) * wordsFor w (v.length + c - v.vec.size * w) := by
  unfold growFor
  dsimp only
  rw [f32_small hc]
  rcases Nat.lt_or_ge (2 ^ 24) (v.vec.size * w) with h1 | h1
  · have := f32_big (n := v.vec.size * w) (by omega)
    rw [if_neg (by omega), show v.length + c - v.vec.size * w = 0 by omega, wordsFor_zero hw]
    exact .pure ⟨rfl, by omega⟩
  · rw [f32_small h1]
    refine .ite (fun hx => ?_) fun hx => .pure ?_
    · rw [f32_small (by omega)]
      unfold floatToU32
      rw [if_pos (by omega)]
      refine .bind (.lift fun x hx => ?_)
      cases hx
      rw [wordCount_wordsFor (by omega)]
      refine (p_vecResize hP hv.cap).mono ?_
      rintro u h' n r ⟨h2, h3⟩
      rw [Nat.add_sub_cancel_left] at h3
      exact ⟨h2, by omega⟩
    · rw [show v.length + c - v.vec.size * w = 0 by omega, wordsFor_zero hw]
      exact ⟨rfl, by omega⟩

theorem p_assignVal {r : BitRef w} {b : Bool} {h : Heap w} {Q : Unit → Heap w → Nat → Nat → Prop} (hq : ∀ h' n, n ≤ 2 → Q () h' n 0) :
    Pays (code (Gen.refAssignVal r ⟨b⟩)) h Q := by
  refine .code fun a m he => hq _ _ ?_
  refine Code.Bound.accesses (Q := fun _ => True) ?_ h.mem
  unfold Gen.refAssignVal
  split
  · exact Gen.b_refUpd r .set
  · exact Gen.b_refUpd r .reset

theorem len_add (hw : 0 < w) (v : BV) (a b : Int) : len ((v.begin : BitIter w).add a) ((v.begin : BitIter w).add b) = b - a := by
  unfold len
  rw [BitIter.add_addr hw, BitIter.add_addr hw]
  omega

theorem add_valid (hw : 0 < w) (v : BV) (a : Int) : ((v.begin : BitIter w).add a).Valid := BitIter.add_valid hw _ _

theorem p_shiftRight {S : ShiftSem w} (hw : 0 < w) {v : BV} {a b c : Nat} {h : Heap w} {Q : BitIter w → Heap w → Nat → Nat → Prop}
    (hq : ∀ x h' n, n ≤ 3 * ((b - a - c) / w) + 15 → Q x h' n 0) :
    Pays (code (Gen.shiftRight S (v.begin.add (a : Int)) (v.begin.add (b : Int)) (c : Int))) h Q := by
  refine .code fun x m he => hq _ _ _ ?_
  have := C93_shift_right S h.mem _ ((v.begin : BitIter w).add (b : Int)) (add_valid hw v (a : Int)) (c : Int)
  rw [len_add hw, show ((b : Int) - a - c).toNat = b - a - c by omega] at this
  exact this

theorem p_shiftLeft {S : ShiftSem w} (hw : 0 < w) {v : BV} {a b c : Nat} {h : Heap w} {Q : BitIter w → Heap w → Nat → Nat → Prop}
    (hq : ∀ x h' n, n ≤ 3 * ((b - a - c) / w) + 17 → Q x h' n 0) :
    Pays (code (Gen.shiftLeft S (v.begin.add (a : Int)) (v.begin.add (b : Int)) (c : Int))) h Q := by
  refine .code fun x m he => hq _ _ _ ?_
  have := C93_shift_left S h.mem _ _ (add_valid hw v (a : Int)) (add_valid hw v (b : Int)) (c : Int)
  rw [len_add hw, show ((b : Int) - a - c).toNat = b - a - c by omega] at this
  exact this

/-- A vector becomes one of `s` words and `n` elements, and costs at most `N`, credit included. -/
def Ends (k : Nat) (c s n N : Nat) (v' : BV) (a : Nat) : Prop := v'.vec.size = s ∧ v'.length = n ∧ a + v'.vec.credit k ≤ c + N

section
variable {k : Nat} {P : Policy} {S : ShiftSem w} (hw : 0 < w) (hP : Grows k P) {v : BV} {h : Heap w} (hv : Fits w v)

theorem credit_le_of (u : Vec) {s : Nat} (h1 : u.size = s) (h2 : s ≤ u.cap) : u.credit k ≤ 2 * s := by
  subst h1
  exact Vec.credit_le h2

theorem p_fresh {n : Nat} {f : Nat → Option (BitVec w)} {Q : Vec → Heap w → Nat → Nat → Prop}
    (hq : ∀ u h' r, u.size = n → u.credit k ≤ 2 * n → Q u h' n r) : Pays (fresh P n f) h Q := by
  refine .step fun a h' he => ?_
  cases he
  exact hq _ _ _ rfl (credit_le_of _ rfl (P.alloc_ok n))

theorem p_ofCount {n : Nat} (hn : n < 2 ^ 32) : Pays (ofCount P n) h fun v' _ a _ => Ends k 0 (wordsFor w n) n (3 * wordsFor w n) v' a := by
  refine .bind (p_fresh (k := k) fun u h' r h1 h2 => .pure ?_)
  rw [wordCount_wordsFor hn] at *
  exact ⟨h1, rfl, by dsimp only; omega⟩

theorem p_ofCountVal {n : Nat} {b : Bool} (hn : n < 2 ^ 32) : Pays (ofCountVal P n b) h fun v' _ a _ => Ends k 0 (wordsFor w n) n (3 * wordsFor w n) v' a := by
  refine .bind (p_fresh (k := k) fun u h' r h1 h2 => .pure ?_)
  rw [wordCount_wordsFor hn] at *
  exact ⟨h1, rfl, by dsimp only; omega⟩

theorem p_ofWords {l : List (BitVec w)} : Pays (ofWords P l) h fun v' _ a _ => Ends k 0 l.length (l.length * w) (3 * l.length) v' a := by
  refine .bind (p_fresh (k := k) fun u h' r h1 h2 => .pure ?_)
  exact ⟨h1, by dsimp only; rw [h1], by dsimp only; omega⟩

theorem b_writeBools (l : List Bool) : ∀ d, (writeBools S l d).Bound (fun _ => True) (2 * l.length) := by
  induction l with
  | nil => exact fun d => trivial
  | cons b l ih =>
    intro d
    refine Gen.b_bind_lift fun r => Code.Bound.bind (Q := fun _ => True) (n := 2) ?_ (by rw [List.length_cons]; omega) fun _ _ => ?_
    · unfold Gen.refAssignVal
      split
      · exact Gen.b_refUpd r .set
      · exact Gen.b_refUpd r .reset
    · exact (ih _).mono (fun _ h => h) (by rw [List.length_cons]; omega)

theorem p_ofBoolRange {l : List Bool} : Pays (ofBoolRange S P l) h fun v' _ a _ => Ends k 0 l.length l.length (5 * l.length) v' a := by
  refine .bind (p_fresh (k := k) fun u h' r h1 h2 => .bind (.code fun x m he => .pure ?_))
  have := (b_writeBools (S := S) l (BV.begin ⟨u, l.length⟩)).accesses h'.mem
  exact ⟨h1, rfl, by dsimp only; omega⟩

theorem b_writeChars (it : BitIter w) (l : List Char) : ∀ i, (writeChars S it l i).Bound (fun _ => True) (2 * (digitsOf l).length) := by
  induction l with
  | nil => exact fun d => trivial
  | cons c l ih =>
    intro i
    have h (b : Bool) (n : Nat) (hn : 2 * ((digitsOf l).length + 1) ≤ n) : (Gen.lift (it.index S (i : Int)) >>= fun r => Gen.refAssignVal r ⟨b⟩ >>= fun _ => writeChars S it l (i + 1) : Code w Unit).Bound
        (fun _ => True) n := by
      refine Gen.b_bind_lift fun r => Code.Bound.bind (Q := fun _ => True) (n := 2) ?_ (by omega) fun _ _ => ?_
      · unfold Gen.refAssignVal
        split
        · exact Gen.b_refUpd r .set
        · exact Gen.b_refUpd r .reset
      · exact (ih _).mono (fun _ h => h) (by omega)
    unfold writeChars
    split
    · rename_i hc
      subst hc
      exact h _ _ (Nat.le_refl _)
    · split
      · rename_i hc
        subst hc
        exact h _ _ (Nat.le_refl _)
      · rename_i h0 h1
        have : digitsOf (c :: l) = digitsOf l := by
          unfold digitsOf
          rw [List.filterMap_cons]
          simp [h0, h1]
        rw [this]
        exact ih i

theorem p_ofString {s : List Char} : Pays (ofString S P s) h fun v' _ a _ => Ends k 0 (digitsOf s).length (digitsOf s).length (5 * (digitsOf s).length) v' a := by
  have hn : s.count '0' + s.count '1' = (digitsOf s).length := (length_digitsOf s).symm
  unfold ofString
  dsimp only
  rw [hn]
  refine .bind (p_fresh (k := k) fun u h' r h1 h2 => .bind (.code fun x m he => .pure ?_))
  have := (b_writeChars (S := S) (BV.begin ⟨u, (digitsOf s).length⟩) s 0).accesses h'.mem
  exact ⟨h1, rfl, by dsimp only; omega⟩

theorem p_copyOf (o : BV) : Pays (w := w) (copyOf P o) h fun v' _ a _ => Ends k 0 o.vec.size o.length (4 * o.vec.size) v' a := by
  refine .bind (.step fun u h' he => .pure ?_)
  cases he
  have := credit_le_of (k := k) ⟨h.next, o.vec.size, P.alloc o.vec.size⟩ rfl (P.alloc_ok _)
  exact ⟨rfl, rfl, by dsimp only at *; omega⟩

include hw hP hv in
theorem p_pushBack {b : Bool} : Pays (pushBack S P v b) h fun v' _ a _ =>
    Ends k (v.vec.credit k) (v.vec.size + wordsFor w (v.length + 1 - v.vec.size * w)) (v.length + 1)
      (2 + (4 * k + 1) * wordsFor w (v.length + 1 - v.vec.size * w)) v' a := by
  refine .bind ((p_room hw hP hv).mono ?_)
  rintro u h' n r ⟨h1, h2⟩
  refine .bind (.lift fun x _ => .bind (p_assignVal fun h'' n' hn => .pure ⟨h1, rfl, ?_⟩))
  dsimp only
  omega

include hw hP hv in
theorem p_insert {d : Nat} {b : Bool} : Pays (insert S P v (v.begin.add (d : Int)) b) h fun v' _ a _ =>
    Ends k (v.vec.credit k) (v.vec.size + wordsFor w (v.length + 1 - v.vec.size * w)) (v.length + 1)
      ((4 * k + 1) * wordsFor w (v.length + 1 - v.vec.size * w) + 3 * ((v.length - d) / w) + 17) v'.1 a := by
  refine .bind (.distance (distance_begin (IsPos.begin_add hw v d)) (.bind ((p_room hw hP hv).mono ?_)))
  rintro u h' n r ⟨h1, h2⟩
  refine .bind (p_shiftRight (c := 1) hw fun x h'' n1 hn1 => .bind (.lift fun x _ => .bind (p_assignVal fun h'' n' hn => .pure ⟨h1, rfl, ?_⟩)))
  rw [show v.length + 1 - d - 1 = v.length - d by omega] at hn1
  dsimp only
  omega

include hw hP hv in
theorem p_insertN {d c : Nat} {b : Bool} (hc : v.length + c ≤ 2 ^ 24) : Pays (insertN S P v (v.begin.add (d : Int)) c b) h fun v' _ a _ =>
    Ends k (v.vec.credit k) (v.vec.size + wordsFor w (v.length + c - v.vec.size * w)) (v.length + c)
      (if c = 0 then 0 else (4 * k + 1) * wordsFor w (v.length + c - v.vec.size * w) + 3 * ((v.length - d) / w) + c / w + 19) v'.1 a := by
  refine .bind (.distance (distance_begin (IsPos.begin_add hw v d)) (.ite (fun h0 => ?_) fun h0 => .bind ((p_growFor hw hP hv hc).mono ?_)))
  · subst h0
    rw [Nat.add_zero, Nat.sub_eq_zero_of_le hv.fit, wordsFor_zero hw]
    exact .pure ⟨rfl, rfl, by simp⟩
  · rw [if_neg h0]
    rintro u h' n r ⟨h1, h2⟩
    refine .bind (p_shiftRight hw fun x h'' n1 hn1 => .bind (.code fun y m he => .pure ⟨h1, rfl, ?_⟩))
    rw [show v.length + c - d - c = v.length - d by omega] at hn1
    have := C93_fill S h''.mem _ _ (add_valid hw ⟨u, v.length + c⟩ (d : Int))
      (BitIter.add_valid hw ((BV.begin ⟨u, v.length + c⟩ : BitIter w).add (d : Int)) (c : Int)) b
    unfold len at this
    rw [BitIter.add_addr hw _ (c : Int), show ∀ x : Int, (x + c - x).toNat = c by intro x; omega] at this
    dsimp only
    omega

include hw hP hv in
theorem p_insertRange {d : Nat} {f l : BitIter w} {s : List Bool} (hs : HoldsSeq h f l s) (hc : v.length + s.length ≤ 2 ^ 24) :
    Pays (insertRange S P v (v.begin.add (d : Int)) f l) h fun v' _ a _ =>
    Ends k (v.vec.credit k) (v.vec.size + wordsFor w (v.length + s.length - v.vec.size * w)) (v.length + s.length)
      (if s.length = 0 then 0 else
        (4 * k + 1) * wordsFor w (v.length + s.length - v.vec.size * w) + 3 * ((v.length - d) / w) + 3 * (s.length / w) + 23) v'.1 a := by
  refine .bind (.distance (distance_begin (IsPos.begin_add hw v d)) (.bind (.distance (distance_seq hs) ?_)))
  rw [show toSize (s.length : Int) = s.length by unfold toSize; rw [if_pos (by omega)]; omega]
  refine .ite (fun h0 => ?_) fun h0 => .bind ((p_growFor hw hP hv hc).mono ?_)
  · rw [h0, Nat.add_zero, Nat.sub_eq_zero_of_le hv.fit, wordsFor_zero hw]
    exact .pure ⟨rfl, rfl, by simp⟩
  · rw [if_neg h0]
    rintro u h' n r ⟨h1, h2⟩
    refine .bind (p_shiftRight hw fun x h'' n1 hn1 => .bind (.code fun y m he => .pure ⟨h1, rfl, ?_⟩))
    rw [show v.length + s.length - d - s.length = v.length - d by omega] at hn1
    have := C93_copy S h''.mem f l ((BV.begin ⟨u, v.length + s.length⟩ : BitIter w).add (d : Int)) hs.validFirst hs.validLast
    unfold len at this
    rw [hs.len, show ∀ x : Int, (x + s.length - x).toNat = s.length by intro x; omega] at this
    dsimp only
    omega

theorem p_dropWord {u : Vec} {n : Nat} : Pays (dropWord u n) h fun u' _ a _ =>
    u'.size = (if n % w = 0 then u.size - 1 else u.size) ∧ a + u'.credit k ≤ u.credit k := by
  refine .ite (fun hc => .step fun u' h' he => ?_) fun hc => .pure ⟨by rw [if_neg hc], by omega⟩
  rw [if_pos hc]
  unfold Vec.popBack at he
  split at he
  · cases he
  · cases he
    refine ⟨rfl, ?_⟩
    have := Vec.credit_mono (k := k) (u := { u with size := u.size - 1 }) (v := u) (Nat.sub_le _ _) (Nat.le_refl _)
    omega

theorem subSize_one {n : Nat} (h : 0 < n) : subSize n 1 = n - 1 := by
  unfold subSize toSize
  rw [if_pos (by omega)]
  omega

theorem p_popBack (hn : 0 < v.length) : Pays (w := w) (popBack v) h fun v' _ a _ =>
    Ends k (v.vec.credit k) (if (v.length - 1) % w = 0 then v.vec.size - 1 else v.vec.size) (v.length - 1) 0 v' a := by
  unfold popBack
  dsimp only
  rw [subSize_one hn]
  refine .bind ((p_dropWord (k := k)).mono ?_)
  rintro u h' n r ⟨h1, h2⟩
  exact .pure ⟨h1, rfl, by dsimp only; omega⟩

include hw in
theorem p_erase {d : Nat} (hn : 0 < v.length) : Pays (erase S v (v.begin.add (d : Int))) h fun v' _ a _ =>
    Ends k (v.vec.credit k) (if (v.length - 1) % w = 0 then v.vec.size - 1 else v.vec.size) (v.length - 1) (3 * ((v.length - (d + 1)) / w) + 17) v'.1 a := by
  unfold erase
  dsimp only
  refine .bind (p_shiftLeft (c := 1) hw fun x h' n1 hn1 => ?_)
  rw [subSize_one hn]
  refine .bind ((p_dropWord (k := k)).mono ?_)
  rintro u h' n r ⟨h1, h2⟩
  rw [show v.length - d - 1 = v.length - (d + 1) by omega] at hn1
  exact .pure ⟨h1, rfl, by dsimp only; omega⟩

include hw hP hv in
theorem p_eraseRange {a b : Nat} (hab : a ≤ b) (hb : b ≤ v.length) (hn : v.length - (b - a) < 2 ^ 32) :
    Pays (eraseRange S P v (v.begin.add (a : Int)) (v.begin.add (b : Int))) h fun v' _ acc _ =>
      if a = b then Ends k (v.vec.credit k) v.vec.size v.length 0 v'.1 acc
      else Ends k (v.vec.credit k) (wordsFor w (v.length - (b - a))) (v.length - (b - a)) (3 * ((v.length - b) / w) + 17) v'.1 acc := by
  have hd : distance (v.begin.add (a : Int)) (v.begin.add (b : Int)) h.mem = .ok (((b - a : Nat) : Int), h.mem) := by
    have h1 := BitIter.add_addr hw (v.begin : BitIter w) (a : Int)
    have h2 := BitIter.add_addr hw (v.begin : BitIter w) (b : Int)
    have := (wp_distance (w := w) (first := v.begin.add (a : Int)) (last := v.begin.add (b : Int)) (m := h.mem)
      (Q := fun x m => x = ((b - a : Nat) : Int) ∧ m = h.mem)).2 ⟨by omega, by omega, rfl⟩
    obtain ⟨x, m, e, rfl, rfl⟩ := this
    exact e
  refine .bind (.distance (distance_begin (IsPos.begin_add hw v a)) (.bind (.distance hd (.ite (fun h0 => .pure ?_) fun h0 => ?_))))
  · rw [if_pos (by omega)]
    exact ⟨rfl, rfl, by dsimp only; omega⟩
  · simp only [if_neg (show ¬ a = b by omega)]
    refine .bind (p_shiftLeft (b := v.length) hw fun x h' n1 hn1 => ?_)
    rw [show toSize ((v.length : Int) - ((b - a : Nat) : Int)) = v.length - (b - a) by unfold toSize; rw [if_pos (by omega)]; omega, wordCount_wordsFor hn]
    refine .bind ((p_vecResize hP hv.cap).mono ?_)
    rintro u h' n r ⟨h1, h2⟩
    have hle : wordsFor w (v.length - (b - a)) ≤ v.vec.size := by
      rw [← wordCount_wordsFor hn]
      exact wordCount_le_of_le hw (by have := hv.fit; omega)
    rw [Nat.sub_eq_zero_of_le hle] at h2
    rw [show v.length - a - (b - a) = v.length - b by omega] at hn1
    exact .pure ⟨h1, rfl, by dsimp only; omega⟩

theorem p_clear : Pays (w := w) (clear v) h fun v' _ a _ => Ends k (v.vec.credit k) 0 0 0 v' a := by
  refine .bind (.step fun u h' he => .pure ?_)
  cases he
  refine ⟨rfl, rfl, ?_⟩
  have := Vec.credit_mono (k := k) (u := { v.vec with size := 0 }) (v := v.vec) (Nat.zero_le _) (Nat.le_refl _)
  dsimp only at *
  omega

theorem p_set {n : Nat} {b : Bool} : Pays (set S v n b) h fun v' _ a _ => Ends k (v.vec.credit k) v.vec.size v.length 2 v' a := by
  refine .bind (.lift fun x _ => .bind (p_assignVal fun h'' n' hn => .pure ⟨rfl, rfl, ?_⟩))
  omega

theorem p_copyAssign {o : BV} : Pays (w := w) (copyAssign P v o) h fun v' _ a _ => Ends k (v.vec.credit k) o.vec.size o.length (4 * o.vec.size) v' a := by
  refine .bind ?_
  unfold vecCopyAssign
  refine .ite (fun hc => .step fun u h' he => .pure ?_) fun hc => .bind (.step fun u h' he => .bind (.step fun u' h'' he' => .pure (.pure ?_)))
  · unfold Vec.copyAssign at he
    rw [if_pos hc] at he
    cases he
    have := credit_le_of (k := k) { v.vec with size := o.vec.size } rfl hc
    exact ⟨rfl, rfl, by dsimp only at *; omega⟩
  · cases he
    have := credit_le_of (k := k) ⟨h.next, o.vec.size, P.alloc o.vec.size⟩ rfl (P.alloc_ok _)
    exact ⟨rfl, rfl, by dsimp only at *; omega⟩

theorem p_reserve {n : Nat} : Pays (w := w) (reserve P v n) h fun v' _ a _ => Ends k (v.vec.credit k) v.vec.size v.length (2 * v.vec.size) v' a := by
  refine .bind (.ite (fun hc => .pure (.pure ⟨rfl, rfl, by dsimp only; omega⟩)) fun hc => .step fun u h' he => .pure ?_)
  cases he
  have h1 := P.alloc_ok (wordCount w n)
  have := Vec.credit_mono (k := k) (u := ⟨h.next, v.vec.size, P.alloc (wordCount w n)⟩) (v := v.vec) (Nat.le_refl _) (by dsimp only; omega)
  exact ⟨rfl, rfl, by dsimp only at *; omega⟩

theorem p_shrinkToFit : Pays (w := w) (shrinkToFit P v) h fun v' _ a _ => Ends k (v.vec.credit k) v.vec.size v.length (4 * v.vec.size) v' a := by
  refine .bind (.ite (fun hc => .step fun u h' he => .pure ?_) fun hc => .pure (.pure ⟨rfl, rfl, by dsimp only; omega⟩))
  cases he
  have := credit_le_of (k := k) ⟨h.next, v.vec.size, v.vec.size⟩ rfl (Nat.le_refl _)
  exact ⟨rfl, rfl, by dsimp only at *; omega⟩

include hw hP hv in
theorem p_shrink {n : Nat} (hn : n < 2 ^ 32) (hl : n ≤ v.length) : Pays (w := w) (resize P v n) h fun v' _ a _ =>
    Ends k (v.vec.credit k) (wordsFor w n) n 0 v' a := by
  refine .bind ((p_vecResize hP hv.cap).mono ?_)
  rintro u h' x r ⟨h1, h2⟩
  rw [Nat.sub_eq_zero_of_le (wordCount_le_of_le hw (by have := hv.fit; omega))] at h2
  rw [wordCount_wordsFor hn] at *
  exact .pure ⟨h1, rfl, by dsimp only; omega⟩

end

section
variable {k : Nat} {P : Policy} {S : ShiftSem w}

theorem p_ofBits {h : Heap w} {f l : BitIter w} {s : List Bool} (hs : HoldsSeq h f l s) : Pays (ofBits S P f l) h fun v' _ a _ =>
    Ends k 0 s.length s.length (3 * s.length + 3 * (s.length / w) + 8) v' a := by
  have hd := distance_seq hs
  have ht : toSize (s.length : Int) = s.length := by unfold toSize; rw [if_pos (by omega)]; omega
  refine .bind (.distance hd ?_)
  rw [ht]
  refine .bind (.step fun u h' he => ?_)
  have hu : u.size = s.length ∧ s.length ≤ u.cap := by cases he; exact ⟨rfl, P.alloc_ok _⟩
  have hd' : distance f l h'.mem = .ok ((s.length : Int), h'.mem) := by
    have := (wp_distance (w := w) (first := f) (last := l) (m := h'.mem) (Q := fun x m => x = (s.length : Int) ∧ m = h'.mem)).2
      ⟨by have := hs.len; omega, by have := hs.len; omega, rfl⟩
    obtain ⟨x, m, e, rfl, rfl⟩ := this
    exact e
  refine .bind (.distance hd' ?_)
  rw [ht]
  refine .bind (.code fun y m he => .pure ⟨hu.1, rfl, ?_⟩)
  have := C93_copy S h'.mem f l (BV.begin ⟨u, s.length⟩) hs.validFirst hs.validLast
  unfold len at this
  rw [hs.len, show ∀ x : Int, (x + s.length - x).toNat = s.length by intro x; omega] at this
  have := credit_le_of (k := k) u hu.1 hu.2
  dsimp only
  omega

theorem wordsFor_ge (hw : 0 < w) (n : Nat) : n ≤ wordsFor w n * w := by
  unfold wordsFor
  have h1 := Nat.div_add_mod (n + w - 1) w
  have h2 := Nat.mod_lt (n + w - 1) hw
  rw [Nat.mul_comm] at h1
  omega

theorem wordsFor_lt (hw : 0 < w) (n : Nat) : wordsFor w n * w < n + w := by
  unfold wordsFor
  have h1 := Nat.div_add_mod (n + w - 1) w
  rw [Nat.mul_comm] at h1
  omega

theorem wordsFor_eq (hw : 0 < w) {n q : Nat} (h1 : n ≤ q * w) (h2 : q * w < n + w) : wordsFor w n = q := by
  unfold wordsFor
  exact Nat.div_eq_of_lt_le (by omega) (by rw [Nat.succ_mul]; omega)

/-- One more element needs a word exactly if the words are full. -/
theorem wordsFor_succ (hw : 0 < w) (n : Nat) : wordsFor w n + wordsFor w (n + 1 - wordsFor w n * w) = wordsFor w (n + 1) := by
  have h1 := wordsFor_ge hw n
  have h2 := wordsFor_lt hw n
  generalize wordsFor w n = q at *
  rcases Nat.lt_or_ge n (q * w) with h3 | h3
  · rw [Nat.sub_eq_zero_of_le h3, wordsFor_zero hw, Nat.add_zero]
    exact (wordsFor_eq hw (by omega) (by omega)).symm
  · rw [show n + 1 - q * w = 1 by omega, wordsFor_one hw]
    exact (wordsFor_eq hw (by rw [Nat.succ_mul]; omega) (by rw [Nat.succ_mul]; omega)).symm

end

/-! ### All vectors -/

/-- Credit of all vectors. -/
def bank (k : Nat) (vs : List BV) : Nat := (vs.map fun v => v.vec.credit k).sum

theorem shapeOf_append (vs : List BV) (v : BV) : shapeOf (vs ++ [v]) = shapeOf vs ++ [(v.vec.size, v.length)] := by
  simp [shapeOf]

theorem bank_append (k : Nat) (vs : List BV) (v : BV) : bank k (vs ++ [v]) = bank k vs + v.vec.credit k := by
  simp [bank]

theorem shapeOf_set (vs : List BV) (i : Nat) (v : BV) : shapeOf (vs.set i v) = (shapeOf vs).set i (v.vec.size, v.length) := by
  simp [shapeOf, List.map_set]

theorem bank_set (k : Nat) {vs : List BV} {i : Nat} {v v' : BV} (h : vs[i]? = some v) : bank k (vs.set i v') + v.vec.credit k = bank k vs + v'.vec.credit k := by
  induction vs generalizing i with
  | nil => simp at h
  | cons u vs ih =>
    cases i with
    | zero => simp at h; subst h; simp [bank]; omega
    | succ i =>
      have := ih (i := i) (by simpa using h)
      simp [bank] at *
      omega

theorem words_shapeOf {vs : List BV} {i : Nat} {v : BV} (h : vs[i]? = some v) : (shapeOf vs).words i = v.vec.size := by
  simp [shapeOf, Shape.words, h]

theorem elems_shapeOf {vs : List BV} {i : Nat} {v : BV} (h : vs[i]? = some v) : (shapeOf vs).elems i = v.length := by
  simp [shapeOf, Shape.elems, h]

theorem set_shapeOf {vs : List BV} {i : Nat} {v : BV} (h : vs[i]? = some v) : (shapeOf vs).set i (v.vec.size, v.length) = shapeOf vs := by
  have hi : i < vs.length := (List.getElem?_eq_some_iff.1 h).1
  have hv : vs[i] = v := (List.getElem?_eq_some_iff.1 h).2
  rw [← shapeOf_set, ← hv, List.set_getElem_self]

/-- The vectors become ones of shape `σ` for the price `N`. -/
def Spends (k : Nat) (c : Nat) (σ : Shape) (N : Nat) (vs' : List BV) (a : Nat) : Prop := shapeOf vs' = σ ∧ a + bank k vs' ≤ c + N

theorem p_newVec {k : Nat} {vs : List BV} {f : K w BV} {h : Heap w} {s n N : Nat} (hf : Pays f h fun v' _ a _ => Ends k 0 s n N v' a) :
    Pays (newVecK vs f) h fun vs' _ a _ => Spends k (bank k vs) (shapeOf vs ++ [(s, n)]) N vs' a := by
  refine .bind (hf.mono ?_)
  rintro v' h' a r ⟨h1, h2, h3⟩
  refine .pure ⟨by rw [shapeOf_append, h1, h2], ?_⟩
  rw [bank_append]
  omega

theorem p_onVec {k : Nat} {vs : List BV} {i : Nat} {v : BV} {f : BV → K w BV} {h : Heap w} {s n N : Nat} (hv : vs[i]? = some v)
    (hf : Pays (f v) h fun v' _ a _ => Ends k (v.vec.credit k) s n N v' a) :
    Pays (onVecK vs i f) h fun vs' _ a _ => Spends k (bank k vs) ((shapeOf vs).set i (s, n)) N vs' a := by
  unfold onVecK
  rw [hv]
  refine .bind (hf.mono ?_)
  rintro v' h' a r ⟨h1, h2, h3⟩
  refine .pure ⟨by rw [shapeOf_set, h1, h2], ?_⟩
  have := bank_set k (v' := v') hv
  omega

theorem p_onVec2 {k : Nat} {vs : List BV} {i j : Nat} {v o : BV} {f : BV → BV → K w BV} {h : Heap w} {s n N : Nat} (hv : vs[i]? = some v) (ho : vs[j]? = some o)
    (hf : Pays (f v o) h fun v' _ a _ => Ends k (v.vec.credit k) s n N v' a) :
    Pays (onVec2K vs i j f) h fun vs' _ a _ => Spends k (bank k vs) ((shapeOf vs).set i (s, n)) N vs' a := by
  unfold onVec2K
  rw [hv, ho]
  refine .bind (hf.mono ?_)
  rintro v' h' a r ⟨h1, h2, h3⟩
  refine .pure ⟨by rw [shapeOf_set, h1, h2], ?_⟩
  have := bank_set k (v' := v') hv
  omega

theorem credit_default (k : Nat) : BV.default.vec.credit k = 0 := by
  show (2 * k + 2) * 0 - 2 * k * 0 = 0
  simp

theorem fits {h : Heap w} {v : BV} {l : List Bool} (r : Rep h v l) : Fits w v := ⟨r.ok.cap, r.fit⟩

theorem p_pushBack_fits {P : Policy} {S : ShiftSem w} (hw : 0 < w) {v : BV} {b : Bool} {h : Heap w} (hv : Fits w v) :
    Pays (pushBack S P v b) h fun v' _ _ _ => Fits w v' := by
  have hf := hv.fit
  have hc := hv.cap
  refine .bind (Pays.mono (Q := fun u _ _ _ => u.size ≤ u.cap ∧ v.length + 1 ≤ u.size * w) ?_ ?_)
  · refine .ite (fun hx => .bind (p_ensure (fun h1 => ?_) fun h1 p h' => ?_)) fun hx => .pure ⟨hc, by omega⟩
    · refine .step fun a h' he => ?_
      cases he
      exact ⟨h1, by dsimp only; rw [Nat.succ_mul]; omega⟩
    · refine .step fun a h' he => ?_
      cases he
      exact ⟨P.grow_ok _ _, by dsimp only; rw [Nat.succ_mul]; omega⟩
  · rintro u h' n r ⟨h1, h2⟩
    exact .bind (.lift fun x _ => .bind (p_assignVal fun h'' n' hn => .pure ⟨h1, h2⟩))

theorem p_ofBoolList {k : Nat} {P : Policy} {S : ShiftSem w} (hw : 0 < w) (hP : Grows k P) (l : List Bool) (h : Heap w) : Pays (ofBoolList S P l) h fun v' _ a _ =>
    Ends k 0 (wordsFor w l.length) l.length (2 * l.length + (4 * k + 1) * wordsFor w l.length) v' a := by
  have key : ∀ (l : List Bool) (v : BV) (h : Heap w) (n : Nat), Fits w v → v.vec.size = wordsFor w n → v.length = n →
      Pays (l.foldlM (fun v b => pushBack S P v b) v) h fun v' _ a _ => Ends k (v.vec.credit k) (wordsFor w (n + l.length)) (n + l.length)
        (2 * l.length + (4 * k + 1) * (wordsFor w (n + l.length) - wordsFor w n)) v' a := by
    intro l
    induction l with
    | nil =>
      intro v h n hv h1 h2
      exact .pure ⟨h1, h2, by omega⟩
    | cons b l ih =>
      intro v h n hv h1 h2
      rw [List.foldlM_cons]
      refine .bind (((p_pushBack hw hP hv).and (p_pushBack_fits hw hv)).mono ?_)
      rintro v' h' a r ⟨⟨h3, h4, h5⟩, h6⟩
      have hs := wordsFor_succ hw n
      rw [h1, h2] at h3 h5
      refine (ih v' h' (n + 1) h6 (by omega) (by omega)).mono ?_
      rintro v'' h'' a' r' ⟨h7, h8, h9⟩
      rw [Nat.add_right_comm, Nat.add_assoc] at h7 h8 h9
      rw [List.length_cons]
      refine ⟨h7, h8, ?_⟩
      have hm : wordsFor w (n + 1) ≤ wordsFor w (n + (l.length + 1)) := by
        unfold wordsFor
        exact Nat.div_le_div_right (by omega)
      have e1 : wordsFor w (n + (l.length + 1)) - wordsFor w n = wordsFor w (n + 1 - wordsFor w n * w) + (wordsFor w (n + (l.length + 1)) - wordsFor w (n + 1)) := by
        omega
      rw [e1, Nat.mul_add (4 * k + 1)]
      omega
  have := key l BV.default h 0 ⟨Nat.le_refl _, Nat.zero_le _⟩ (wordsFor_zero hw).symm rfl
  rw [credit_default, wordsFor_zero hw, Nat.zero_add] at this
  exact this

theorem p_exec {k : Nat} {P : Policy} {S : ShiftSem w} (hw : 0 < w) (hP : Grows k P) {h : Heap w} {vs : List BV} {ls : List (List Bool)} (op : Op w)
    (e : EnvOk h vs ls) (hpre : op.Pre ls) (hlim : op.SizeLim ls) :
    Pays (op.execK S P vs) h fun vs' _ a _ => Spends k (bank k vs) (op.shape (shapeOf vs)) (op.price k (shapeOf vs)) vs' a := by
  cases op with
  | newEmpty => exact p_newVec (.pure ⟨rfl, rfl, by rw [credit_default]; omega⟩)
  | newCount n => exact p_newVec (p_ofCount hlim)
  | newCountVal n x => exact p_newVec (p_ofCountVal hlim)
  | newString s => exact p_newVec p_ofString
  | newBoolRange l => exact p_newVec p_ofBoolRange
  | newBoolList l => exact p_newVec (p_ofBoolList hw hP l h)
  | newWords l => exact p_newVec p_ofWords
  | newBits j a b =>
    obtain ⟨hj, hab, hb⟩ := hpre
    obtain ⟨o, h1, h2, r⟩ := e.get hj
    have hlen : (((Op.at' ls j).take b).drop a).length = b - a := by simp; omega
    have := p_newVec (vs := vs) (p_ofBits (S := S) (P := P) (k := k) (r.holdsSeq hw hab hb))
    rw [hlen] at this
    unfold Op.execK
    dsimp only
    rw [h1]
    exact this
  | newCopy j =>
    obtain ⟨o, h1, h2, r⟩ := e.get hpre
    unfold Op.execK Op.shape Op.price
    dsimp only
    rw [h1, words_shapeOf h1, elems_shapeOf h1]
    exact p_newVec (p_copyOf o)
  | push i x =>
    obtain ⟨v, h1, h2, r⟩ := e.get hpre
    unfold Op.shape Op.price Shape.added
    dsimp only
    rw [words_shapeOf h1, elems_shapeOf h1]
    exact p_onVec h1 (p_pushBack hw hP (fits r))
  | pop i =>
    obtain ⟨v, h1, h2, r⟩ := e.get hpre.1
    unfold Op.shape Op.price
    dsimp only
    rw [words_shapeOf h1, elems_shapeOf h1]
    refine p_onVec h1 (p_popBack ?_)
    rw [r.len]
    exact List.length_pos_iff.2 hpre.2
  | insert i d x =>
    obtain ⟨v, h1, h2, r⟩ := e.get hpre.1
    unfold Op.shape Op.price Shape.added
    dsimp only
    rw [words_shapeOf h1, elems_shapeOf h1]
    exact p_onVec h1 (.map (p_insert hw hP (fits r)))
  | insertN i d n x =>
    obtain ⟨v, h1, h2, r⟩ := e.get hpre.1
    unfold Op.shape Op.price Shape.added
    dsimp only
    rw [words_shapeOf h1, elems_shapeOf h1]
    exact p_onVec h1 (.map (p_insertN hw hP (fits r) (by rw [r.len]; exact hlim)))
  | insertRange i d j a b =>
    obtain ⟨hi, hd, hj, hij, hab, hb⟩ := hpre
    obtain ⟨v, h1, h2, r⟩ := e.get hi
    obtain ⟨o, h3, h4, ro⟩ := e.get hj
    have hlen : (((Op.at' ls j).take b).drop a).length = b - a := by simp; omega
    have := p_onVec2 (vs := vs) (i := i) (j := j) (f := fun v o =>
      Prod.fst <$> insertRange S P v (v.begin.add (d : Int)) (o.begin.add (a : Int)) (o.begin.add (b : Int))) h1 h3
      (.map (p_insertRange (S := S) (d := d) hw hP (fits r) (ro.holdsSeq hw hab hb) (by rw [hlen, r.len]; exact hlim)))
    simp only [hlen, show (b - a = 0) = (a = b) by apply propext; omega] at this
    unfold Op.shape Op.price Shape.added
    dsimp only
    rw [words_shapeOf h1, elems_shapeOf h1]
    exact this
  | erase i d =>
    obtain ⟨v, h1, h2, r⟩ := e.get hpre.1
    unfold Op.shape Op.price
    dsimp only
    rw [words_shapeOf h1, elems_shapeOf h1]
    exact p_onVec h1 (.map (p_erase hw (by have := hpre.2; rw [r.len]; omega)))
  | eraseRange i a b =>
    obtain ⟨v, h1, h2, r⟩ := e.get hpre.1
    have := p_eraseRange (S := S) (k := k) (h := h) hw hP (fits r) hpre.2.1 (by rw [r.len]; exact hpre.2.2) (by have : _ < _ := hlim; have := r.len; omega)
    unfold Op.shape Op.price
    dsimp only
    split_ifs with hab
    · simp only [if_pos hab] at this
      rw [← set_shapeOf h1]
      exact p_onVec h1 (.map this)
    · simp only [if_neg hab] at this
      rw [elems_shapeOf h1]
      exact p_onVec h1 (.map this)
  | clear i =>
    obtain ⟨v, h1, h2, r⟩ := e.get hpre
    exact p_onVec h1 p_clear
  | set i m x =>
    obtain ⟨v, h1, h2, r⟩ := e.get hpre.1
    have := p_onVec h1 (f := fun v => set S v m x) (h := h) (k := k) p_set
    rw [set_shapeOf h1] at this
    exact this
  | copyAssign i j =>
    obtain ⟨v, h1, h2, r⟩ := e.get hpre.1
    obtain ⟨o, h3, h4, ro⟩ := e.get hpre.2
    unfold Op.shape Op.price
    dsimp only
    rw [words_shapeOf h3, elems_shapeOf h3]
    exact p_onVec2 h1 h3 p_copyAssign
  | moveAssign i j =>
    obtain ⟨hi, hj, hij⟩ := hpre
    obtain ⟨v, h1, h2, r⟩ := e.get hi
    obtain ⟨o, h3, h4, ro⟩ := e.get hj
    unfold Op.execK Op.shape Op.price
    dsimp only
    rw [h1, h3]
    refine .bind (.step fun x h' he => ?_)
    cases he
    refine .pure ⟨?_, ?_⟩
    · rw [shapeOf_set, shapeOf_set, words_shapeOf h3, elems_shapeOf h3]
      rfl
    · have e1 := bank_set k (v' := o) h1
      have h5 : (vs.set i o)[j]? = some o := by rw [List.getElem?_set, if_neg hij]; exact h3
      have e2 := bank_set k (v' := BV.default) h5
      have := credit_default k
      show _ + bank k ((vs.set i o).set j BV.default) ≤ _
      omega
  | reserve i n =>
    obtain ⟨v, h1, h2, r⟩ := e.get hpre
    have := p_onVec h1 (f := fun v => reserve P v n) (k := k) (h := h) p_reserve
    rw [set_shapeOf h1] at this
    unfold Op.shape Op.price
    dsimp only
    rw [words_shapeOf h1]
    exact this
  | shrinkToFit i =>
    obtain ⟨v, h1, h2, r⟩ := e.get hpre
    have := p_onVec h1 (f := fun v => shrinkToFit P v) (k := k) (h := h) p_shrinkToFit
    rw [set_shapeOf h1] at this
    unfold Op.shape Op.price
    dsimp only
    rw [words_shapeOf h1]
    exact this
  | shrink i n =>
    obtain ⟨v, h1, h2, r⟩ := e.get hpre.1
    exact p_onVec h1 (p_shrink hw hP (fits r) hlim (by rw [r.len]; exact hpre.2))
  | destroy i =>
    obtain ⟨v, h1, h2, r⟩ := e.get hpre
    exact p_onVec h1 (.bind (.step fun x h' he => .pure ⟨rfl, rfl, by rw [credit_default]; omega⟩))

theorem bank_le (k : Nat) {vs : List BV} (h : ∀ v ∈ vs, v.vec.size ≤ v.vec.cap) : bank k vs ≤ 2 * (shapeOf vs).total := by
  induction vs with
  | nil => exact Nat.le_refl _
  | cons v vs ih =>
    have h1 := ih fun v hv => h v (List.mem_cons_of_mem _ hv)
    have h2 := Vec.credit_le (k := k) (h v (List.mem_cons_self ..))
    simp only [bank, shapeOf, Shape.total, List.map_cons, List.sum_cons] at *
    omega

/-- What is kept by `push_back` is kept by pushing many elements; `j` elements were pushed before. -/
theorem p_pushes {P : Policy} {S : ShiftSem w} {i : Nat} (Inv : Nat → BV → Nat → Nat → Prop)
    (hi : ∀ j v b h a r, Inv j v a r → Pays (pushBack S P v b) h fun v' _ a' r' => Inv (j + 1) v' (a + a') (r + r')) (l : List Bool) :
    ∀ {vs : List BV} {v : BV} {h : Heap w} {j a r : Nat}, vs[i]? = some v → Inv j v a r →
      Pays (runHistK S P vs (l.map (Op.push i))) h fun vs' _ a' r' => ∃ v', vs'[i]? = some v' ∧ Inv (j + l.length) v' (a + a') (r + r') := by
  induction l with
  | nil => exact fun {vs v h j a r} hv hI => .pure ⟨v, hv, hI⟩
  | cons b l ih =>
    intro vs v h j a r hv hI
    unfold runHistK
    rw [List.map_cons, List.foldlM_cons]
    refine .bind ?_
    show Pays (onVecK vs i fun v => pushBack S P v b) _ _
    unfold onVecK
    rw [hv]
    refine .bind ((hi j v b h a r hI).mono ?_)
    intro v' h' a' r' hI'
    refine .pure ?_
    have hlt : i < vs.length := (List.getElem?_eq_some_iff.1 hv).1
    have := ih (vs := vs.set i v') (v := v') (h := h') (by rw [List.getElem?_set, if_pos rfl, if_pos hlt]) hI'
    refine this.mono ?_
    rintro vs' h'' a'' r'' ⟨u, h1, h2⟩
    refine ⟨u, h1, ?_⟩
    rw [List.length_cons, show j + (l.length + 1) = j + 1 + l.length by omega]
    simpa only [Nat.add_assoc, Nat.add_zero] using h2

/-- What `push_back` does to storage: nothing while there is room in the last word, one word stored while there is capacity, otherwise a move. -/
theorem p_pushBack_cases {P : Policy} {S : ShiftSem w} {v : BV} {b : Bool} {h : Heap w} {Q : BV → Nat → Nat → Prop}
    (h0 : v.vec.size * w ≠ v.length → ∀ a, a ≤ 2 → Q ⟨v.vec, v.length + 1⟩ a 0)
    (h1 : v.vec.size * w = v.length → v.vec.size + 1 ≤ v.vec.cap → ∀ a, a ≤ 2 → Q ⟨{ v.vec with size := v.vec.size + 1 }, v.length + 1⟩ (1 + a) 0)
    (h2 : v.vec.size * w = v.length → v.vec.cap < v.vec.size + 1 → ∀ p a, a ≤ 2 →
      Q ⟨⟨p, v.vec.size + 1, P.grow v.vec.cap (v.vec.size + 1)⟩, v.length + 1⟩ (2 * v.vec.size + 1 + a) 1) :
    Pays (pushBack S P v b) h fun v' _ a r => Q v' a r := by
  refine .bind (Pays.mono (Q := fun u _ n r => (v.vec.size * w ≠ v.length ∧ u = v.vec ∧ n = 0 ∧ r = 0) ∨
    (v.vec.size * w = v.length ∧ v.vec.size + 1 ≤ v.vec.cap ∧ u = { v.vec with size := v.vec.size + 1 } ∧ n = 1 ∧ r = 0) ∨
    (v.vec.size * w = v.length ∧ v.vec.cap < v.vec.size + 1 ∧ (∃ p, u = ⟨p, v.vec.size + 1, P.grow v.vec.cap (v.vec.size + 1)⟩) ∧ n = 2 * v.vec.size + 1 ∧ r = 1)) ?_ ?_)
  · refine .ite (fun hx => .bind (p_ensure (fun h1 => ?_) fun h1 p h' => ?_)) fun hx => .pure (.inl ⟨hx, rfl, rfl, rfl⟩)
    · refine .step fun a h' he => ?_
      cases he
      exact .inr (.inl ⟨hx, h1, rfl, by omega, rfl⟩)
    · refine .step fun a h' he => ?_
      cases he
      exact .inr (.inr ⟨hx, h1, ⟨_, rfl⟩, rfl, rfl⟩)
  · rintro u h' n r (⟨hx, rfl, rfl, rfl⟩ | ⟨hx, hy, rfl, rfl, rfl⟩ | ⟨hx, hy, ⟨p, rfl⟩, rfl, rfl⟩)
    · exact .bind (.lift fun x _ => .bind (p_assignVal fun h'' n' hn => .pure (by simpa using h0 hx n' hn)))
    · exact .bind (.lift fun x _ => .bind (p_assignVal fun h'' n' hn => .pure (by simpa using h1 hx hy n' hn)))
    · exact .bind (.lift fun x _ => .bind (p_assignVal fun h'' n' hn => .pure (by simpa using h2 hx hy p n' hn)))

end Billed
/-! ### Requests -/

section
open Billed

theorem p_freshReq {P : Policy} {n : Nat} {f : Nat → Option (BitVec w)} {h : Heap w} {Q : Vec → Heap w → Nat → Nat → Prop}
    (hq : ∀ v' h' a, Q v' h' a (if v'.size = 0 then 0 else 1)) : Pays (fresh P n f) h Q := by
  refine .step fun v' h' e => ?_
  have hs : v'.size = n := by unfold Vec.fresh at e; cases e; rfl
  have := hq v' h' n
  rw [hs] at this
  rcases Nat.eq_zero_or_pos n with h0 | h0
  · rw [if_pos h0] at this
    rw [if_neg (by omega)]
    exact this
  · rw [if_neg (by omega)] at this
    rw [if_pos h0]
    exact this

theorem p_any {c : Code w α} {h : Heap w} {Q : α → Heap w → Nat → Nat → Prop} (hq : ∀ x m a, Q x { h with mem := m } a 0) : Pays (code c) h Q :=
  .code fun _ _ _ => hq _ _ _

theorem p_movedRealloc {v : Vec} {cap : Nat} {h : Heap w} (hv : v.ptr ≠ h.next) :
    Pays (realloc v cap : K w Vec) h fun v' _ _ r => r = if v'.ptr = v.ptr then 0 else 1 := by
  refine .step fun v' h' e => ?_
  unfold Vec.realloc at e
  cases e
  rw [if_neg (Ne.symm hv)]
theorem p_movedEnsure {P : Policy} {v : Vec} {n : Nat} {h : Heap w} (hv : v.ptr ≠ h.next) :
    Pays (ensure P v n : K w Vec) h fun v' _ _ r => r = if v'.ptr = v.ptr then 0 else 1 :=
  .ite (fun _ => .pure (by rw [if_pos rfl])) fun _ => p_movedRealloc hv
theorem p_movedPush {P : Policy} {v : Vec} {x : BitVec w} {h : Heap w} (hv : v.ptr ≠ h.next) :
    Pays (vecPushBack P v x : K w Vec) h fun v' _ _ r => r = if v'.ptr = v.ptr then 0 else 1 := by
  refine .bind ((p_movedEnsure hv).mono fun u h' n r hr => .step fun v' h'' e => ?_)
  cases e
  exact hr
theorem p_movedResize {P : Policy} {v : Vec} {n : Nat} {h : Heap w} (hv : v.ptr ≠ h.next) :
    Pays (vecResize P v n : K w Vec) h fun v' _ _ r => r = if v'.ptr = v.ptr then 0 else 1 := by
  refine .ite (fun hn => .step fun v' h'' e => ?_) fun _ => .bind ((p_movedEnsure hv).mono fun u h' n r hr => .step fun v' h'' e => ?_)
  · unfold Vec.resize at e
    rw [if_pos hn] at e
    cases e
    rw [if_pos rfl]
  · cases e
    exact hr
theorem p_movedDrop {v : Vec} {n : Nat} {h : Heap w} :
    Pays (dropWord v n : K w Vec) h fun v' _ _ r => r = if v'.ptr = v.ptr then 0 else 1 := by
  refine .ite (fun hn => .step fun v' h'' e => ?_) fun _ => .pure (by rw [if_pos rfl])
  unfold Vec.popBack at e
  split at e
  · cases e
  · cases e
    rw [if_pos rfl]
theorem p_movedRoom {P : Policy} {v : BV} {h : Heap w} (hv : v.vec.ptr ≠ h.next) :
    Pays (room P v : K w Vec) h fun v' _ _ r => r = if v'.ptr = v.vec.ptr then 0 else 1 :=
  .ite (fun _ => p_movedPush hv) fun _ => .pure (by rw [if_pos rfl])
theorem p_movedGrow {P : Policy} {v : BV} {n : Nat} {h : Heap w} (hv : v.vec.ptr ≠ h.next) :
    Pays (growFor P v n : K w Vec) h fun v' _ _ r => r = if v'.ptr = v.vec.ptr then 0 else 1 :=
  .ite (fun _ => .bind (p_any fun x m a => (p_movedResize (h := { h with mem := m }) hv).mono fun _ _ _ r hr => by rw [Nat.zero_add]; exact hr))
    fun _ => .pure (by rw [if_pos rfl])

end

end BitLib
