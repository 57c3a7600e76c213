import Verif.Lemmas.Cost
import Verif.Lemmas.StdAlg
/- Accesses of programs that use iterators, references and pointers. -/
namespace BitLib
variable {w : Nat} {α β : Type}

theorem Code.accesses_bind (c : Code w α) (f : α → Code w β) : ∀ m, (c >>= f).accesses m =
    c.accesses m + match c.run m with
      | .ok (a, m') => (f a).accesses m'
      | .error _ => 0 := by
  induction c with
  | ret a => intro m; exact (Nat.zero_add _).symm
  | stop e => intro m; rfl
  | load a k ih =>
    intro m
    show (Code.load a fun x => (k x) >>= f).accesses m = _
    cases h : m a with
    | none =>
      have e : (Code.load a k).run m = .error .outOfBounds := M.bind_error' (show BitLib.load a m = _ by unfold BitLib.load; rw [h])
      rw [e]
      simp only [Code.accesses, h]
    | some x =>
      have e : (Code.load a k).run m = (k x).run m := M.bind_ok' (show BitLib.load a m = .ok (x, m) by unfold BitLib.load; rw [h])
      rw [e]
      simp only [Code.accesses, h]
      rw [ih x m]
      omega
  | store a x k ih =>
    intro m
    show (Code.store a x (k >>= f)).accesses m = _
    cases h : m a with
    | none =>
      have e : (Code.store a x k).run m = .error .outOfBounds := M.bind_error' (show BitLib.store a x m = _ by unfold BitLib.store; rw [h])
      rw [e]
      simp only [Code.accesses, h]
    | some y =>
      have e : (Code.store a x k).run m = k.run (m.set a x) := M.bind_ok' (show BitLib.store a x m = .ok ((), m.set a x) by unfold BitLib.store; rw [h])
      rw [e]
      simp only [Code.accesses, h]
      rw [ih (m.set a x)]
      omega

/-- At least `n` accesses in every run that ends. -/
def Code.AtLeast (c : Code w α) (n : Nat) : Prop := ∀ m p, c.run m = .ok p → n ≤ c.accesses m

namespace Gen
open Code (AtLeast)

theorem l_any (c : Code w α) : c.AtLeast 0 := fun _ _ _ => Nat.zero_le _
theorem l_bind {c : Code w α} {f : α → Code w β} {n k : Nat} (hc : c.AtLeast n) (hf : ∀ a, (f a).AtLeast k) : (c >>= f).AtLeast (n + k) := by
  intro m p hp
  rw [Code.accesses_bind]
  rw [show (c >>= f).run m = (c.bind f).run m from rfl, Code.bind_run] at hp
  change (c.run m >>= fun q => (f q.1).run q.2) = _ at hp
  cases h : c.run m with
  | error e => rw [h] at hp; cases hp
  | ok q =>
    rw [h] at hp
    have h1 := hc m q h
    have h2 := hf q.1 q.2 p hp
    dsimp only
    omega
theorem l_load (a : Int) : (load a : Code w _).AtLeast 1 := by
  intro m p _
  show 1 ≤ (Code.load a Code.ret).accesses m
  unfold Code.accesses
  split <;> omega
theorem l_store (a : Int) (x : BitVec w) : (store a x : Code w _).AtLeast 1 := by
  intro m p _
  show 1 ≤ (Code.store a x (Code.ret ())).accesses m
  unfold Code.accesses
  split <;> omega
theorem l_ite {c : Prop} [Decidable c] {x y : Code w α} {n : Nat} (hx : x.AtLeast n) (hy : y.AtLeast n) : (if c then x else y).AtLeast n := by
  split
  · exact hx
  · exact hy
theorem l_use {γ : Type} {x : Option γ} {k : γ → Code w α} {n : Nat} (e : UB) (h : ∀ a, (k a).AtLeast n) : (useSlot (ub e) x k).AtLeast n := by
  cases x with
  | none => intro m p hp; cases hp
  | some a => exact h a
theorem l_mono {c : Code w α} {n k : Nat} (h : c.AtLeast n) (hk : k ≤ n) : c.AtLeast k := fun m p hp => le_trans hk (h m p hp)

theorem l_refToBool (r : BitRef w) : (refToBool r : Code w _).AtLeast 1 := l_bind (l_load _) fun _ => l_any _
theorem l_refSet (r : BitRef w) : (refSet r : Code w _).AtLeast 1 := l_bind (k := 0) (l_load _) fun _ => l_any _
theorem l_refReset (r : BitRef w) : (refReset r : Code w _).AtLeast 1 := l_bind (k := 0) (l_load _) fun _ => l_any _
theorem l_refUpd (r : BitRef w) (u : Upd) : (refUpd r u : Code w _).AtLeast 1 := by
  cases u <;> unfold refUpd
  · exact l_refSet r
  · exact l_refReset r
  · exact l_bind (k := 0) (l_load _) fun _ => l_any _
  · exact l_ite (l_refSet r) (l_refReset r)
  · exact l_ite (l_refSet r) (l_refReset r)
  all_goals exact l_bind (k := 0) (l_load _) fun _ => l_any _
theorem l_refAssignRef (r s : BitRef w) : (refAssignRef r s : Code w _).AtLeast 2 :=
  l_bind (n := 1) (k := 1) (l_refToBool s) fun _ => l_ite (l_refSet r) (l_refReset r)
theorem l_refToVal (r : BitRef w) : (refToVal r : Code w _).AtLeast 1 := l_bind (l_refToBool r) fun _ => l_any _
theorem l_refSwap (r s : BitRef w) : (refSwap r s : Code w _).AtLeast 2 :=
  l_bind (n := 1) (k := 1) (l_refToVal r) fun _ => l_bind (n := 1) (k := 0) (l_refToVal s) fun _ => l_any _
theorem l_refSwapVal (r : BitRef w) (v : BitVal) : (refSwapVal r v : Code w _).AtLeast 1 := l_bind (n := 1) (k := 0) (l_refToVal r) fun _ => l_any _

theorem l_op (S : ShiftSem w) (bi : Bool) (s : Slots (BitIter w) (BitRef w) (BitPtr w)) (op : IOp) :
    (op.run (ub .badRange) (Gen.codeIface S bi) s : Code w _).AtLeast op.bits := by
  cases op
  case read r => exact l_use _ fun a => l_bind (k := 0) (l_refToBool a) fun _ => l_any _
  case upd u r => exact l_use _ fun a => l_bind (k := 0) (l_refUpd a u) fun _ => l_any _
  case assign r q => exact l_use _ fun a => l_use _ fun b => l_bind (k := 0) (l_refAssignRef a b) fun _ => l_any _
  case swap r q => exact l_use _ fun a => l_use _ fun b => l_bind (k := 0) (l_refSwap a b) fun _ => l_any _
  case swapVal r x =>
    exact l_use _ fun a => l_bind (n := 1) (k := 0) (l_bind (n := 1) (k := 0) (l_refSwapVal a ⟨x⟩) fun _ => l_any _) fun _ => l_any _
  all_goals exact l_any _

open Code (Bound)

theorem b_use {γ : Type} {Q : α → Prop} {x : Option γ} {k : γ → Code w α} {n : Nat} (e : UB) (h : ∀ a, (k a).Bound Q n) : (useSlot (ub e) x k).Bound Q n := by
  cases x with
  | none => trivial
  | some a => exact h a

theorem b_refUpd (r : BitRef w) (u : Upd) : (refUpd r u : Code w _).Bound (fun _ => True) 2 := by
  have h (f : BitVec w → BitVec w) : (do let x ← load r.ptr; store r.ptr (f x) : Code w Unit).Bound (fun _ => True) 2 :=
    ⟨by omega, fun x => ⟨by omega, trivial⟩⟩
  cases u <;> unfold refUpd
  · exact h _
  · exact h _
  · exact h _
  · exact b_ite (fun _ => h _) fun _ => h _
  · exact b_ite (fun _ => h _) fun _ => h _
  all_goals exact h _
theorem b_refToBool (r : BitRef w) : (refToBool r : Code w _).Bound (fun _ => True) 1 := ⟨by omega, fun x => trivial⟩
theorem b_refToVal (r : BitRef w) : (refToVal r : Code w _).Bound (fun _ => True) 1 := ⟨by omega, fun x => trivial⟩
theorem b_refFlip (r : BitRef w) : (refFlip r : Code w _).Bound (fun _ => True) 2 := b_refUpd r .flip
theorem b_refAssignRef (r s : BitRef w) : (refAssignRef r s : Code w _).Bound (fun _ => True) 3 :=
  (b_refToBool s).bind (by omega) fun b _ => b_refUpd r (.setTo b)
theorem b_refSwap (r s : BitRef w) : (refSwap r s : Code w _).Bound (fun _ => True) 6 := by
  refine (b_refToVal r).bind (by omega) fun a _ => (b_refToVal s).bind (by omega) fun b _ => ?_
  show (if _ then _ else _ : Code w Unit).Bound _ _
  split
  · exact (b_refFlip r).bind (by omega) fun _ _ => b_refFlip s
  · trivial
theorem b_refSwapVal (r : BitRef w) (v : BitVal) : (refSwapVal r v : Code w _).Bound (fun _ => True) 3 := by
  refine (b_refToVal r).bind (by omega) fun a _ => ?_
  show (if _ then _ else _ : Code w BitVal).Bound _ _
  split
  · exact (b_refFlip r).bind (by omega) fun _ _ => trivial
  · trivial

theorem b_op (S : ShiftSem w) (bi : Bool) (s : Slots (BitIter w) (BitRef w) (BitPtr w)) (op : IOp) :
    (op.run (ub .badRange) (Gen.codeIface S bi) s : Code w _).Bound (fun _ => True) (3 * op.bits) := by
  cases op
  case read r => exact b_use _ fun a => (b_refToBool a).bind (by simp [IOp.bits]) fun _ _ => trivial
  case upd u r => exact b_use _ fun a => (b_refUpd a u).bind (by simp [IOp.bits]) fun _ _ => trivial
  case assign r q => exact b_use _ fun a => b_use _ fun b => (b_refAssignRef a b).bind (by simp [IOp.bits]) fun _ _ => trivial
  case swap r q => exact b_use _ fun a => b_use _ fun b => (b_refSwap a b).bind (by simp [IOp.bits]) fun _ _ => trivial
  case swapVal r x =>
    exact b_use _ fun a => Bound.bind (Bound.bind (Q := fun _ => True) (R := fun _ => True) (b_refSwapVal a ⟨x⟩) (le_refl 3) fun _ _ => trivial) (by simp [IOp.bits]) fun _ _ => trivial
  all_goals unfold IOp.run Gen.codeIface; dsimp only
  case distance i j =>
    refine b_use _ fun a => b_use _ fun b => ?_
    exact b_bind_distance fun _ => trivial
  all_goals
    refine b_use _ fun a => ?_
    first
    | trivial
    | exact b_bind_lift fun _ => trivial
    | (refine b_use _ fun b => ?_
       first
       | trivial
       | exact b_bind_lift fun _ => trivial)

/-- The accesses of a program on the library are those that the bits it touches demand. -/
theorem client_accesses (S : ShiftSem w) (bi : Bool) (o : Int) (c : Client α) : ∀ (s : Slots (BitIter w) (BitRef w) (BitPtr w)) (t : Slots Int Int Int)
    (m : Mem w) (tape : Tape), SlotsAt o s t → TapeRel True o m tape →
    c.bits t tape ≤ (Gen.client S bi c s : Code w _).accesses m ∧ (Gen.client S bi c s : Code w _).accesses m ≤ 3 * c.bits t tape + 6 := by
  induction c with
  | done x => intro s t m tape _ _; exact ⟨le_refl 0, Nat.zero_le _⟩
  | call op next ih =>
    intro s t m tape hs ht
    have h1 := sim_op (F := True) S bi op hs m tape ht
    have hr : (op.run (ub .badRange) (Gen.codeIface S bi) s : Code w _).run m = op.run (BitLib.ub .badRange) (BitLib.codeIface S bi) s m := by rw [r_IOp]
    have hu := (b_op S bi s op).accesses m
    have hb : op.bits ≤ 2 := by cases op <;> simp [IOp.bits]
    have e : (Gen.client S bi (.call op next) s : Code w _).accesses m = _ := Code.accesses_bind (op.run (ub .badRange) (Gen.codeIface S bi) s : Code w _) _ m
    rw [e]
    unfold Client.bits
    cases hi : op.run (fun _ => .error .badRange) idealIface t tape with
    | error x =>
      rw [hi] at h1
      rw [hr, h1 trivial]
      dsimp only
      omega
    | ok p =>
      obtain ⟨⟨t', a⟩, tape'⟩ := p
      rw [hi] at h1
      obtain ⟨⟨s', a'⟩, m', h2, ⟨h3, h4⟩, h5, _⟩ := h1
      have hl := l_op S bi s op m _ (hr.trans h2)
      rw [hr, h2]
      dsimp only at h3 h4 ⊢
      subst h4
      have := ih a' s' t' m' tape' h3 h5
      unfold Gen.client at this
      omega

end Gen
end BitLib
