import Verif.Model.Null
import Verif.Props.Refs
/- C68: the null `bit_pointer`. -/
namespace BitLib
variable {w : Nat}

/-- The position of a null pointer is `digits`. -/
theorem null_position (bi : Bool) : (BitRef.null : BitRef w).position bi = .ok w := by
  have h : tzcntSel bi (0#w) = .ok (BitVec.ofNat w w) := by
    unfold tzcntSel
    have hp : tzcntPort (0#w) = .ok (BitVec.ofNat w w) := by unfold tzcntPort; simp
    cases bi
    · exact hp
    · simp only [if_true]; rw [tzcntBuiltin_eq]; exact hp
  unfold BitRef.position BitRef.null
  rw [h]
  show Except.ok (BitVec.ofNat w w).toNat = _
  rw [toNat_ofNat_le (Nat.le_refl _)]

/-- A null pointer: however it was made. -/
def BitPtr.IsNull (p : BitPtr w) : Prop := p = .default ∨ p = .ofNull ∨ ∃ q : BitPtr w, p = q.assignNull

theorem BitPtr.IsNull.eq {p : BitPtr w} (h : p.IsNull) : p = ⟨BitRef.null⟩ := by
  rcases h with h | h | ⟨q, h⟩ <;> exact h

/-- C68: default construction, construction from `nullptr` and assignment of `nullptr` give pointers that are false, equal to one
another, neither less nor greater, and at distance 0. -/
theorem C68_null (bi : Bool) (p q : BitPtr w) (hp : p.IsNull) (hq : q.IsNull) :
    p.toBool = false ∧ BitPtr.eq bi p q = .ok true ∧ BitPtr.ne bi p q = .ok false ∧ BitPtr.lt bi p q = .ok false ∧
    BitPtr.le bi p q = .ok true ∧ BitPtr.gt bi p q = .ok false ∧ BitPtr.ge bi p q = .ok true ∧ BitPtr.diff bi p q = .ok 0 := by
  rw [hp.eq, hq.eq]
  have h := null_position (w := w) bi
  refine ⟨by simp [BitPtr.toBool, BitRef.null], ?_, ?_, ?_, ?_, ?_, ?_, ?_⟩
  all_goals
    first
      | unfold BitPtr.eq | unfold BitPtr.ne | unfold BitPtr.lt | unfold BitPtr.le
      | unfold BitPtr.gt | unfold BitPtr.ge | unfold BitPtr.diff
    simp only [h, bind, Except.bind, pure, Except.pure]
    simp

/-- C68: a pointer to a bit of an existing word is true and differs from every null pointer. -/
theorem C68_not_null (bi : Bool) (p q : BitPtr w) (a : Int) (hp : p.At a) (ha : p.ref.ptr ≠ nullAddr) (hq : q.IsNull) :
    p.toBool = true ∧ BitPtr.eq bi p q = .ok false ∧ BitPtr.eq bi q p = .ok false ∧ BitPtr.ne bi p q = .ok true ∧
    BitPtr.ne bi q p = .ok true := by
  obtain ⟨i, hi, hk, _⟩ := hp
  have h1 := ref_position bi p.ref i hi hk
  have h := null_position (w := w) bi
  rw [hq.eq]
  have ha' : (BitRef.null : BitRef w).ptr ≠ p.ref.ptr := fun h => ha h.symm
  have ha2 : p.ref.ptr ≠ (BitRef.null : BitRef w).ptr := ha
  refine ⟨decide_eq_true ha, ?_, ?_, ?_, ?_⟩
  all_goals
    first | unfold BitPtr.eq | unfold BitPtr.ne
    simp only [h, h1, bind, Except.bind, pure, Except.pure]
    simp [ha', ha2]

/-- C68: assigning a pointer, null or not, makes the target equal to the source, with the same `bool` value. -/
theorem C68_assign (bi : Bool) (p q : BitPtr w) (hq : q.IsNull ∨ ∃ a, q.At a) :
    BitPtr.eq bi (p.assign q) q = .ok true ∧ (p.assign q).toBool = q.toBool ∧ (p.assign q).deref = q.deref := by
  refine ⟨?_, rfl, rfl⟩
  show BitPtr.eq bi q q = _
  rcases hq with hq | ⟨a, hq⟩
  · exact (C68_null bi q q hq hq).2.1
  · rw [(C05_diff_compare bi q q a a hq hq).2.1]
    simp

/-- C68: adding to a pointer to a bit of an existing word is as in C05. -/
theorem C68_add (S : ShiftSem w) (bi : Bool) (p : BitPtr w) (n : Int) (ha : p.ref.ptr ≠ nullAddr) :
    p.addN S bi n = p.add S bi n := by
  unfold BitPtr.addN BitPtr.add BitPtr.nextWord
  cases p.ref.position bi with
  | error e => rfl
  | ok pos => simp [bind, Except.bind, ha]

/-- C68 is false of a pointer made from a null word pointer: it is false as a `bool`, and it is not equal to the null pointer. -/
theorem C68_typed_null_refuted (hw : 0 < w) (bi : Bool) (q : BitPtr w) (hq : q.IsNull) :
    (BitPtr.aligned nullAddr : BitPtr w).toBool = false ∧ BitPtr.eq bi (BitPtr.aligned nullAddr) q = .ok false := by
  refine ⟨by simp [BitPtr.toBool, BitPtr.aligned, BitRef.aligned], ?_⟩
  rw [hq.eq]
  have h1 : (BitPtr.aligned nullAddr : BitPtr w).ref.position bi = .ok 0 :=
    ref_position bi _ 0 hw (by simp [BitPtr.aligned, BitRef.aligned])
  unfold BitPtr.eq
  simp only [h1, null_position, bind, Except.bind, pure, Except.pure]
  congr 1
  apply decide_eq_false
  rintro ⟨_, h⟩
  omega

/-- Adding to a null pointer: its position is `digits`, so the word pointer moves unless `-digits ≤ n < 0`. -/
theorem C68_null_add_exact (S : ShiftSem w) (hw : 0 < w) (bi : Bool) (p : BitPtr w) (hp : p.IsNull) (n : Int) :
    p.addN S bi n = .error .outOfBounds ↔ ¬ (-(w : Int) ≤ n ∧ n < 0) := by
  rw [hp.eq]
  have hW : (0 : Int) < (w : Int) := by omega
  have e : (((w : Int) + n) / (w : Int) ≠ 0) ↔ ¬ (-(w : Int) ≤ n ∧ n < 0) := by
    rw [not_iff_not]
    have h1 := Int.mul_ediv_add_emod ((w : Int) + n) w
    have h2 := Int.emod_nonneg ((w : Int) + n) (b := (w : Int)) (by omega)
    have h3 := Int.emod_lt_of_pos ((w : Int) + n) hW
    constructor
    · intro h
      rw [h] at h1
      omega
    · rintro ⟨h4, h5⟩
      exact Int.ediv_eq_zero_of_lt (by omega) (by omega)
  have hmod : ((w : Int) + n - ((w : Int) + n) / (w : Int) * w).toNat < w := by
    have h1 := Int.mul_ediv_add_emod ((w : Int) + n) w
    have h2 := Int.emod_nonneg ((w : Int) + n) (b := (w : Int)) (by omega)
    have h3 := Int.emod_lt_of_pos ((w : Int) + n) hW
    rw [Int.mul_comm] at h1
    omega
  unfold BitPtr.addN
  simp only [null_position, bind, Except.bind]
  rw [BitIter.floor_fix hw]
  rw [← e]
  unfold BitPtr.nextWord
  by_cases h : ((w : Int) + n) / (w : Int) = 0
  · rw [if_neg (fun hh => hh.2 h)]
    obtain ⟨q, hq, _⟩ := BitPtr.make_at S ((BitRef.null : BitRef w).ptr + ((w : Int) + n) / (w : Int)) _ hmod
    simp only [hq]
    simp [h]
  · rw [if_pos ⟨rfl, h⟩]
    simp [h]

/-- C68 is false: `p + 0` of a null pointer is not `p` but an addition to a null word pointer. -/
theorem C68_null_add_zero_refuted (S : ShiftSem w) (hw : 0 < w) (bi : Bool) :
    (BitPtr.default : BitPtr w).addN S bi 0 = .error .outOfBounds :=
  (C68_null_add_exact S hw bi _ (Or.inl rfl) 0).2 (by omega)

example : (BitPtr.default : BitPtr 8).IsNull ∧ ((BitPtr.aligned 3 : BitPtr 8).assignNull).IsNull := ⟨Or.inl rfl, Or.inr (Or.inr ⟨_, rfl⟩)⟩
example : (BitPtr.aligned 3 : BitPtr 8).At 24 ∧ (BitPtr.aligned 3 : BitPtr 8).ref.ptr ≠ nullAddr := ⟨⟨0, by decide, rfl, rfl⟩, by decide⟩
example : BitPtr.addN S8 true (BitPtr.default : BitPtr 8) (-1) = .ok ⟨⟨nullAddr, 0x80#8⟩⟩ := by decide +kernel

end BitLib
