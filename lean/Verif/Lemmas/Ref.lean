import Verif.SpecRef
import Verif.Lemmas.Iter
import Verif.Lemmas.Word
import Verif.Lemmas.Instr
import Mathlib.Tactic.SplitIfs
/- Bit references: reading and read-modify-write of one bit. -/
namespace BitLib
variable {w : Nat}

theorem getLsbD_oneShl (p i : Nat) (hi : i < w) : (1#w <<< p).getLsbD i = decide (i = p) := by
  rw [BitVec.getLsbD_shiftLeft]
  by_cases h : i = p
  · subst h
    simp [hi, Nat.lt_of_le_of_lt (Nat.zero_le _) hi]
  · by_cases h2 : i < p
    · simp [h2, h]
    · have : i - p ≠ 0 := by omega
      simp [hi, h2, h, BitVec.getLsbD_one, this]

theorem and_mask_ne_zero (x : BitVec w) (p : Nat) (hp : p < w) : (x &&& (1#w <<< p) ≠ 0#w) ↔ x.getLsbD p = true := by
  constructor
  · intro h
    by_contra hc
    apply h
    apply BitVec.eq_of_getLsbD_eq
    intro i hi
    rw [BitVec.getLsbD_and, BitVec.getLsbD_zero, getLsbD_oneShl p i hi]
    by_cases h0 : i = p
    · subst h0; simp [hc]
    · simp [h0]
  · intro h hc
    have := congrArg (fun y => y.getLsbD p) hc
    beta_reduce at this
    rw [BitVec.getLsbD_and, getLsbD_oneShl p p hp, h] at this
    simp at this

/-- Reading the designated bit. -/
theorem wp_refRead {r : BitRef w} {a : Int} {m : Mem w} {b : Bool} {Q : Bool → Mem w → Prop}
    (hr : r.At a) (hb : bitAt m a = some b) (hQ : Q b m) : wp r.toBool m Q := by
  obtain ⟨p, hp, hk, ha⟩ := hr
  subst ha
  rw [bitAt_word _ _ _ hp] at hb
  unfold BitRef.toBool
  rw [wp_bind, wp_load]
  cases hx : m r.ptr with
  | none => rw [hx] at hb; simp at hb
  | some x =>
    rw [hx] at hb
    refine ⟨x, rfl, ?_⟩
    rw [wp_pure, hk]
    have e : decide (x &&& (1#w <<< p) ≠ 0#w) = b := by
      have h1 : x.getLsbD p = b := by simpa using hb
      rw [← h1, Bool.eq_iff_iff, decide_eq_true_eq, and_mask_ne_zero x p hp]
    rw [e]; exact hQ

/-- Read-modify-write of the designated bit. -/
theorem wp_refRmw {r : BitRef w} {a : Int} {m : Mem w} {b c : Bool} {f : BitVec w → BitVec w} {Q : Unit → Mem w → Prop}
    (hr : r.At a) (hb : bitAt m a = some b)
    (hf : ∀ x p, p < w → r.mask = 1#w <<< p → x.getLsbD p = b →
      ∀ i, i < w → (f x).getLsbD i = if i = p then c else x.getLsbD i)
    (hQ : ∀ m', OneBit m m' a c → Q () m') :
    wp (do let x ← load r.ptr; store r.ptr (f x)) m Q := by
  obtain ⟨p, hp, hk, ha⟩ := hr
  subst ha
  rw [bitAt_word _ _ _ hp] at hb
  rw [wp_bind, wp_load]
  cases hx : m r.ptr with
  | none => rw [hx] at hb; simp at hb
  | some x =>
    rw [hx] at hb
    refine ⟨x, rfl, ?_⟩
    rw [wp_store]
    refine ⟨⟨x, hx⟩, hQ _ ?_⟩
    intro i
    have hf' := hf x p hp hk (by simpa using hb)
    rw [bitAt_set (by omega)]
    by_cases h1 : r.ptr * (w : Int) ≤ i ∧ i < r.ptr * (w : Int) + w
    · rw [if_pos h1]
      obtain ⟨q, hq⟩ : ∃ q : Nat, i = r.ptr * (w : Int) + q := ⟨(i - r.ptr * w).toNat, by omega⟩
      subst hq
      rw [show (r.ptr * (w : Int) + q - r.ptr * w).toNat = q by omega, hf' q (by omega), bitAt_word _ _ _ (by omega), hx]
      split_ifs with h2 h3 h3
      · rfl
      · exfalso; omega
      · exfalso; omega
      · rfl
    · rw [if_neg h1, if_neg (by omega)]

theorem wp_refSet {r : BitRef w} {a : Int} {m : Mem w} {Q : Unit → Mem w → Prop}
    (hr : r.At a) (hb : (bitAt m a).isSome) (hQ : ∀ m', OneBit m m' a true → Q () m') : wp r.set m Q := by
  obtain ⟨b, hb⟩ := Option.isSome_iff_exists.1 hb
  refine wp_refRmw (f := fun x => x ||| r.mask) hr hb ?_ hQ
  intro x p hp hk hx i hi
  rw [BitVec.getLsbD_or, hk, getLsbD_oneShl p i hi]
  by_cases h : i = p <;> simp [h]

theorem wp_refReset {r : BitRef w} {a : Int} {m : Mem w} {Q : Unit → Mem w → Prop}
    (hr : r.At a) (hb : (bitAt m a).isSome) (hQ : ∀ m', OneBit m m' a false → Q () m') : wp r.reset m Q := by
  obtain ⟨b, hb⟩ := Option.isSome_iff_exists.1 hb
  refine wp_refRmw (f := fun x => x &&& ~~~ r.mask) hr hb ?_ hQ
  intro x p hp hk hx i hi
  rw [BitVec.getLsbD_and, BitVec.getLsbD_not, hk, getLsbD_oneShl p i hi]
  by_cases h : i = p <;> simp [h, hi]

theorem wp_refFlip {r : BitRef w} {a : Int} {m : Mem w} {b : Bool} {Q : Unit → Mem w → Prop}
    (hr : r.At a) (hb : bitAt m a = some b) (hQ : ∀ m', OneBit m m' a (!b) → Q () m') : wp r.flip m Q := by
  refine wp_refRmw (f := fun x => x ^^^ r.mask) hr hb ?_ hQ
  intro x p hp hk hx i hi
  rw [BitVec.getLsbD_xor, hk, getLsbD_oneShl p i hi]
  by_cases h : i = p
  · subst h; simp [hx]
  · simp [h]

theorem wp_refSetTo {r : BitRef w} {a : Int} {m : Mem w} {v : Bool} {Q : Unit → Mem w → Prop}
    (hr : r.At a) (hb : (bitAt m a).isSome) (hQ : ∀ m', OneBit m m' a v → Q () m') :
    wp (if v then r.set else r.reset) m Q := by
  cases v
  · exact wp_refReset hr hb hQ
  · exact wp_refSet hr hb hQ

theorem wp_refAnd {r : BitRef w} {a : Int} {m : Mem w} {b : Bool} {v : BitVal} {Q : Unit → Mem w → Prop}
    (hr : r.At a) (hb : bitAt m a = some b) (hQ : ∀ m', OneBit m m' a (b && v.value) → Q () m') : wp (r.andAssign v) m Q := by
  refine wp_refRmw (f := fun x => x &&& ~~~ (r.mask * boolWord (!v.value))) hr hb ?_ hQ
  intro x p hp hk hx i hi
  rw [BitVec.getLsbD_and, BitVec.getLsbD_not]
  cases v.value
  · rw [show (!false) = true from rfl, boolWord_true_mul, hk, getLsbD_oneShl p i hi]
    by_cases h : i = p <;> simp [h, hi]
  · rw [show (!true) = false from rfl, boolWord_false_mul]
    by_cases h : i = p
    · subst h; rw [hx]; simp [hi]
    · simp [h, hi]

theorem wp_refOr {r : BitRef w} {a : Int} {m : Mem w} {b : Bool} {v : BitVal} {Q : Unit → Mem w → Prop}
    (hr : r.At a) (hb : bitAt m a = some b) (hQ : ∀ m', OneBit m m' a (b || v.value) → Q () m') : wp (r.orAssign v) m Q := by
  refine wp_refRmw (f := fun x => x ||| (r.mask * boolWord v.value)) hr hb ?_ hQ
  intro x p hp hk hx i hi
  rw [BitVec.getLsbD_or]
  cases v.value
  · rw [boolWord_false_mul]
    by_cases h : i = p
    · subst h; simp [hx]
    · simp [h]
  · rw [boolWord_true_mul, hk, getLsbD_oneShl p i hi]
    by_cases h : i = p <;> simp [h]

theorem wp_refXor {r : BitRef w} {a : Int} {m : Mem w} {b : Bool} {v : BitVal} {Q : Unit → Mem w → Prop}
    (hr : r.At a) (hb : bitAt m a = some b) (hQ : ∀ m', OneBit m m' a (b ^^ v.value) → Q () m') : wp (r.xorAssign v) m Q := by
  refine wp_refRmw (f := fun x => x ^^^ (r.mask * boolWord v.value)) hr hb ?_ hQ
  intro x p hp hk hx i hi
  rw [BitVec.getLsbD_xor]
  cases v.value
  · rw [boolWord_false_mul]
    by_cases h : i = p
    · subst h; simp [hx]
    · simp [h]
  · rw [boolWord_true_mul, hk, getLsbD_oneShl p i hi]
    by_cases h : i = p
    · subst h; simp [hx]
    · simp [h]

theorem ref_make (S : ShiftSem w) (a : Int) (p : Nat) (hp : p < w) :
    ∃ r, BitRef.make S a p = .ok r ∧ r.At (a * (w : Int) + p) ∧ r.ptr = a ∧ r.mask = 1#w <<< p := by
  refine ⟨⟨a, 1#w <<< p⟩, ?_, ⟨p, hp, rfl, rfl⟩, rfl, rfl⟩
  unfold BitRef.make
  rw [if_pos hp, S.shl_ok hp]; rfl

theorem tzcntSel_mask (bi : Bool) (p : Nat) (hp : p < w) : ∃ r : BitVec w, tzcntSel bi (1#w <<< p) = .ok r ∧ r.toNat = p := by
  have hne : (1#w <<< p) ≠ 0#w := by
    intro h
    have := congrArg (fun y => y.getLsbD p) h
    beta_reduce at this
    rw [getLsbD_oneShl p p hp] at this
    simp at this
  have hport : tzcntPort (1#w <<< p) = .ok (BitVec.ofNat w p) := by
    refine tzcntPort_bot hp ?_ ?_
    · rw [getLsbD_oneShl p p hp]; simp
    · intro i hi
      rw [getLsbD_oneShl p i (by omega)]
      simp; omega
  refine ⟨BitVec.ofNat w p, ?_, toNat_ofNat_le (by omega)⟩
  unfold tzcntSel
  cases bi
  · exact hport
  · simp only [if_true]; rw [tzcntBuiltin_eq]; exact hport

theorem ref_position (bi : Bool) (r : BitRef w) (p : Nat) (hp : p < w) (hk : r.mask = 1#w <<< p) :
    r.position bi = .ok p := by
  obtain ⟨x, hx, hx'⟩ := tzcntSel_mask (w := w) bi p hp
  unfold BitRef.position
  rw [hk, hx]
  show Except.ok x.toNat = _
  rw [hx']

end BitLib
