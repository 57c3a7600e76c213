import Verif.Lemmas.Wp
/- Restricted memories and concrete memories for the examples. -/
namespace BitLib
variable {w : Nat}

theorem Mapped.only {m : Mem w} {a b : Int} {P : Int → Prop} (h : Mapped m a b)
    (hP : ∀ c, HoldsBit w a b c → P c) : Mapped (m.only P) a b := by
  intro i h1 h2
  have := h i h1 h2
  unfold bitAt Mem.only at *
  rw [if_pos (hP _ ⟨i, h1, h2, rfl⟩)]
  exact this

theorem Range.only {m : Mem w} {first last : BitIter w} {P : Int → Prop} (h : Range m first last)
    (hP : ∀ c, HoldsBit w first.addr last.addr c → P c) : Range (m.only P) first last :=
  ⟨h.1, h.2, h.3, h.4.only hP⟩

theorem Dest.only {m : Mem w} {d : BitIter w} {n : Int} {P : Int → Prop} (h : Dest m d n)
    (hP : ∀ c, HoldsBit w d.addr (d.addr + n) c → P c) : Dest (m.only P) d n :=
  ⟨h.1, h.2.only hP⟩

theorem mapped_memOf (hw : 0 < w) {l : List (BitVec w)} {a b : Int} (ha : 0 ≤ a) (hb : b ≤ l.length * w) :
    Mapped (memOf l) a b := by
  intro i h1 h2
  have h3 : 0 ≤ i / (w : Int) := Int.ediv_nonneg (by omega) (by omega)
  have h4 : i / (w : Int) < l.length := Int.ediv_lt_of_lt_mul (by omega) (by omega)
  have h5 : (i / (w : Int)).toNat < l.length := by omega
  unfold bitAt memOf
  rw [if_pos h3, List.getElem?_eq_getElem h5]
  rfl

theorem range_memOf {l : List (BitVec w)} {first last : BitIter w} (h1 : first.Valid) (h2 : last.Valid)
    (h3 : first.addr ≤ last.addr) (h4 : 0 ≤ first.addr) (h5 : last.addr ≤ l.length * w) : Range (memOf l) first last :=
  ⟨h1, h2, h3, mapped_memOf (Nat.lt_of_le_of_lt (Nat.zero_le _) h1) h4 h5⟩

theorem dest_memOf {l : List (BitVec w)} {d : BitIter w} {n : Int} (h1 : d.Valid) (h4 : 0 ≤ d.addr)
    (h5 : d.addr + n ≤ l.length * w) : Dest (memOf l) d n :=
  ⟨h1, mapped_memOf (Nat.lt_of_le_of_lt (Nat.zero_le _) h1) h4 h5⟩

end BitLib
