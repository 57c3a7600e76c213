import Verif.Lemmas.Bytes
import Verif.Props.Run
/- C69: references to words of different types in one storage. -/
namespace BitLib
variable {k l : Nat}

/-- C69: on an array of words of one type the byte memory acts as the memory of words used everywhere else: loading and storing
word `j` of the array is loading and storing word `j` of the view, with the same outcome. -/
theorem C69_view (e : Endian) (hk : 0 < k) (base j : Int) (x : BitVec (8 * k)) (m : Mem 8) :
    (loadWord e k (base + (k : Int) * j) m).map (fun p => (p.1, wordView e k base p.2)) = load j (wordView e k base m) ∧
    (storeWord e k (base + (k : Int) * j) x m).map (fun p => (p.1, wordView e k base p.2)) = store j x (wordView e k base m) := by
  by_cases h : WordMapped m k (base + (k : Int) * j)
  · obtain ⟨y, hv, hl, _⟩ := wordView_some (e := e) h
    constructor
    · rw [hl]
      unfold load
      rw [hv]; rfl
    · obtain ⟨_, m', hs, hbits, hframe⟩ := wp_storeWord (e := e) (x := x) (Q := fun _ m' =>
        (∀ p, p < 8 * k → bitAt m' (bitLoc e k (base + (k : Int) * j) p) = some (x.getLsbD p)) ∧
        ∀ c, (∀ p, p < 8 * k → c ≠ bitLoc e k (base + (k : Int) * j) p) → bitAt m' c = bitAt m c) h
        fun m' h1 h2 => ⟨h1, h2⟩
      rw [hs]
      unfold store
      rw [hv]
      show Except.ok ((), wordView e k base m') = Except.ok ((), (wordView e k base m).set j x)
      congr 2
      funext i
      have hsome : ∀ c, (bitAt m' c).isSome = (bitAt m c).isSome := by
        intro c
        by_cases hc : ∃ p, p < 8 * k ∧ c = bitLoc e k (base + (k : Int) * j) p
        · obtain ⟨p, hp, rfl⟩ := hc
          obtain ⟨z, _, hz⟩ := loadWord_ok (e := e) h
          rw [hbits p hp, hz p hp]; rfl
        · rw [hframe c (fun p hp he => hc ⟨p, hp, he⟩)]
      by_cases hi : WordMapped m k (base + (k : Int) * i)
      · have hi' : WordMapped m' k (base + (k : Int) * i) := hi.of_bits fun c hc => by rw [hsome c]; exact hc
        obtain ⟨u, hu, _, hub⟩ := wordView_some (e := e) hi
        obtain ⟨v, hv', _, hvb⟩ := wordView_some (e := e) hi'
        rw [hv']
        unfold Mem.set
        by_cases hij : i = j
        · subst hij
          rw [if_pos rfl]
          congr 1
          apply BitVec.eq_of_getLsbD_eq
          intro p hp
          have := (hvb p hp).symm.trans (hbits p hp)
          simpa using this
        · rw [if_neg hij, hu]
          congr 1
          apply BitVec.eq_of_getLsbD_eq
          intro p hp
          have h1 := hvb p hp
          rw [hframe, hub p hp] at h1
          · simpa using h1.symm
          · intro q hq hc
            have r1 := bitLoc_range (e := e) (a := base + (k : Int) * i) hp
            have r2 := bitLoc_range (e := e) (a := base + (k : Int) * j) hq
            rw [hc] at r1
            rcases Int.lt_or_gt_of_ne hij with hlt | hgt
            · have := Int.mul_le_mul_of_nonneg_left (c := (k : Int)) (show i + 1 ≤ j by omega) (by omega)
              rw [Int.mul_add] at this
              omega
            · have := Int.mul_le_mul_of_nonneg_left (c := (k : Int)) (show j + 1 ≤ i by omega) (by omega)
              rw [Int.mul_add] at this
              omega
      · have hi' : ¬ WordMapped m' k (base + (k : Int) * i) := fun hc => hi (hc.of_bits fun c hc => by rw [← hsome c]; exact hc)
        rw [wordView_none hi']
        have hij : i ≠ j := by rintro rfl; exact hi h
        unfold Mem.set
        rw [if_neg hij, wordView_none hi]
  · constructor
    · rw [loadWord_fail h]
      unfold load
      rw [wordView_none h]; rfl
    · rw [storeWord_fail h]
      unfold store
      rw [wordView_none h]; rfl

/-- C69: a reference made from a word and a position designates that bit, on either byte order. -/
theorem C69_make (e : Endian) (S : ShiftSem (8 * k)) (a : Int) (pos : Nat) (h : pos < 8 * k) :
    ∃ r, BitRef.make S a pos = .ok r ∧ r.ptr = a ∧ r.AtB e (bitLoc e k a pos) := by
  obtain ⟨r, h1, _, h3, h4⟩ := ref_make S a pos h
  exact ⟨r, h1, h3, pos, h, h4, by rw [h3]⟩

/-- C69: reading and single-bit updates of a word in a byte memory change exactly the designated bit of the storage. -/
theorem C69_single (e : Endian) (m : Mem 8) (r : BitRef (8 * k)) (c : Int) (b : Bool) (hr : r.AtB e c)
    (hm : WordMapped m k r.ptr) (hb : bitAt m c = some b) :
    r.toBoolB e m = .ok (b, m) ∧
    (∃ m', r.setB e m = .ok ((), m') ∧ ∀ i, bitAt m' i = if i = c then some true else bitAt m i) ∧
    (∃ m', r.resetB e m = .ok ((), m') ∧ ∀ i, bitAt m' i = if i = c then some false else bitAt m i) ∧
    (∃ m', r.flipB e m = .ok ((), m') ∧ ∀ i, bitAt m' i = if i = c then some (!b) else bitAt m i) := by
  have hs : (bitAt m c).isSome := by rw [hb]; rfl
  refine ⟨?_, ?_, ?_, ?_⟩
  · obtain ⟨x, m', h, rfl, rfl⟩ := wp_refReadB (Q := fun x m' => x = b ∧ m' = m) hr hm hb ⟨rfl, rfl⟩
    exact h
  · obtain ⟨_, m', h, hm⟩ := wp_refSetB (Q := fun _ m' => OneBit m m' c true) hr hm hs (fun _ h => h)
    exact ⟨m', h, hm⟩
  · obtain ⟨_, m', h, hm⟩ := wp_refResetB (Q := fun _ m' => OneBit m m' c false) hr hm hs (fun _ h => h)
    exact ⟨m', h, hm⟩
  · obtain ⟨_, m', h, hm⟩ := wp_refFlipB (Q := fun _ m' => OneBit m m' c (!b)) hr hm hb (fun _ h => h)
    exact ⟨m', h, hm⟩

/-- C69: assigning a reference to a reference to a word of another type copies the bit and changes nothing else, also if the two
words share bytes. -/
theorem C69_assign (e : Endian) (m : Mem 8) (r : BitRef (8 * k)) (o : BitRef (8 * l)) (a c : Int) (v : Bool)
    (hr : r.AtB e a) (ho : o.AtB e c) (hmr : WordMapped m k r.ptr) (hmo : WordMapped m l o.ptr)
    (ha : (bitAt m a).isSome) (hv : bitAt m c = some v) :
    ∃ m', BitRef.assignMixed e r o m = .ok ((), m') ∧ ∀ i, bitAt m' i = if i = a then some v else bitAt m i := by
  have : wp (BitRef.assignMixed e r o) m (fun _ m' => OneBit m m' a v) := by
    unfold BitRef.assignMixed
    rw [wp_bind]
    refine wp_refReadB ho hmo hv ?_
    cases v
    · exact wp_refResetB hr hmr ha (fun _ h => h)
    · exact wp_refSetB hr hmr ha (fun _ h => h)
  obtain ⟨_, m', h, hm⟩ := this
  exact ⟨m', h, hm⟩

theorem flips_swap (e : Endian) {m : Mem 8} {r : BitRef (8 * k)} {o : BitRef (8 * l)} {a c : Int} {x y : Bool}
    (hr : r.AtB e a) (ho : o.AtB e c) (hmr : WordMapped m k r.ptr) (hmo : WordMapped m l o.ptr)
    (hx : bitAt m a = some x) (hy : bitAt m c = some y) (hxy : x ≠ y) :
    wp (do r.flipB e; o.flipB e) m (fun _ m' => ∀ i, bitAt m' i =
      if i = a then some y else if i = c then some x else bitAt m i) := by
  have hac : a ≠ c := by rintro rfl; rw [hx] at hy; exact hxy (by simpa using hy)
  rw [wp_bind]
  refine wp_refFlipB hr hmr hx (fun m1 h1 => ?_)
  refine wp_refFlipB (b := y) ho (h1.mapped hmo) (by rw [h1 c, if_neg (Ne.symm hac), hy]) (fun m2 h2 => ?_)
  intro i
  rw [h2 i, h1 i]
  have e1 : (!y) = x := by cases x <;> cases y <;> simp_all
  have e2 : (!x) = y := by cases x <;> cases y <;> simp_all
  rw [e1, e2]
  split_ifs with h3 h4 h5
  · omega
  · rfl
  · rfl
  · rfl

/-- C69: both forms of `swap` exchange the two bits and change nothing else, whatever the two word types; the words may share bytes,
and the bits may be one bit. -/
theorem C69_swap (e : Endian) (m : Mem 8) (r : BitRef (8 * k)) (o : BitRef (8 * l)) (a c : Int) (x y : Bool)
    (hr : r.AtB e a) (ho : o.AtB e c) (hmr : WordMapped m k r.ptr) (hmo : WordMapped m l o.ptr)
    (hx : bitAt m a = some x) (hy : bitAt m c = some y) :
    (∃ m', BitRef.swapMixed e r o m = .ok ((), m') ∧
      ∀ i, bitAt m' i = if i = a then some y else if i = c then some x else bitAt m i) ∧
    (∃ m', BitRef.swapMember e r o m = .ok ((), m') ∧
      ∀ i, bitAt m' i = if i = a then some y else if i = c then some x else bitAt m i) := by
  have same : x = y → ∀ i, bitAt m i = if i = a then some y else if i = c then some x else bitAt m i := by
    rintro rfl i
    split_ifs with h1 h2
    · rw [h1, hx]
    · rw [h2, hy]
    · rfl
  constructor
  · have : wp (BitRef.swapMixed e r o) m (fun _ m' => ∀ i, bitAt m' i =
        if i = a then some y else if i = c then some x else bitAt m i) := by
      unfold BitRef.swapMixed BitRef.toValB
      simp only [wp_bind]
      refine wp_refReadB hr hmr hx ?_
      rw [wp_pure]
      refine wp_refReadB ho hmo hy ?_
      rw [wp_pure]
      by_cases hxy : x = y
      · rw [if_neg (by subst hxy; cases x <;> decide), wp_pure]
        exact same hxy
      · rw [if_pos (by cases x <;> cases y <;> simp_all <;> decide)]
        exact flips_swap e hr ho hmr hmo hx hy hxy
    obtain ⟨_, m', h, hm⟩ := this
    exact ⟨m', h, hm⟩
  · have : wp (BitRef.swapMember e r o) m (fun _ m' => ∀ i, bitAt m' i =
        if i = a then some y else if i = c then some x else bitAt m i) := by
      unfold BitRef.swapMember BitRef.toValB
      simp only [wp_bind]
      refine wp_refReadB ho hmo hy ?_
      rw [wp_pure]
      refine wp_refReadB hr hmr hx ?_
      rw [wp_pure]
      by_cases hxy : x = y
      · rw [if_neg (by subst hxy; cases x <;> decide), wp_pure]
        exact same hxy
      · rw [if_pos (by cases x <;> cases y <;> simp_all <;> decide)]
        exact flips_swap e hr ho hmr hmo hx hy hxy
    obtain ⟨_, m', h, hm⟩ := this
    exact ⟨m', h, hm⟩

/-- C69: comparing or combining references to words of different types compares or combines the two bits and changes nothing. -/
theorem C69_ops (e : Endian) (m : Mem 8) (r : BitRef (8 * k)) (o : BitRef (8 * l)) (a c : Int) (x y : Bool)
    (hr : r.AtB e a) (ho : o.AtB e c) (hmr : WordMapped m k r.ptr) (hmo : WordMapped m l o.ptr)
    (hx : bitAt m a = some x) (hy : bitAt m c = some y) :
    BitRef.cmpMixed BitVal.eq e r o m = .ok (x == y, m) ∧ BitRef.cmpMixed BitVal.ne e r o m = .ok (x != y, m) ∧
    BitRef.cmpMixed BitVal.lt e r o m = .ok (!x && y, m) ∧ BitRef.cmpMixed BitVal.le e r o m = .ok (!x || y, m) ∧
    BitRef.cmpMixed BitVal.gt e r o m = .ok (x && !y, m) ∧ BitRef.cmpMixed BitVal.ge e r o m = .ok (x || !y, m) ∧
    BitRef.opMixed .and e r o m = .ok (⟨x && y⟩, m) ∧ BitRef.opMixed .or e r o m = .ok (⟨x || y⟩, m) ∧
    BitRef.opMixed .xor e r o m = .ok (⟨x ^^ y⟩, m) := by
  have hcmp : ∀ op : BitVal → BitVal → Bool, BitRef.cmpMixed op e r o m = .ok (op ⟨x⟩ ⟨y⟩, m) := by
    intro op
    have : wp (BitRef.cmpMixed op e r o) m (fun v m' => v = op ⟨x⟩ ⟨y⟩ ∧ m' = m) := by
      unfold BitRef.cmpMixed BitRef.toValB
      simp only [wp_bind]
      refine wp_refReadB hr hmr hx ?_
      rw [wp_pure]
      refine wp_refReadB ho hmo hy ?_
      rw [wp_pure, wp_pure]
      exact ⟨rfl, rfl⟩
    obtain ⟨v, m', h, rfl, rfl⟩ := this
    exact h
  have hop : ∀ op : BitVal → BitVal → BitVal, BitRef.opMixed op e r o m = .ok (op ⟨x⟩ ⟨y⟩, m) := by
    intro op
    have : wp (BitRef.opMixed op e r o) m (fun v m' => v = op ⟨x⟩ ⟨y⟩ ∧ m' = m) := by
      unfold BitRef.opMixed BitRef.toValB
      simp only [wp_bind]
      refine wp_refReadB hr hmr hx ?_
      rw [wp_pure]
      refine wp_refReadB ho hmo hy ?_
      rw [wp_pure, wp_pure]
      exact ⟨rfl, rfl⟩
    obtain ⟨v, m', h, rfl, rfl⟩ := this
    exact h
  simp only [hcmp, hop]
  cases x <;> cases y <;> exact ⟨rfl, rfl, rfl, rfl, rfl, rfl, rfl, rfl, rfl⟩

/-- C69: a word some of whose bytes do not exist cannot be accessed through a reference. -/
theorem C69_unmapped (e : Endian) (m : Mem 8) (r : BitRef (8 * k)) (h : ¬ WordMapped m k r.ptr) :
    r.toBoolB e m = .error .outOfBounds ∧ r.setB e m = .error .outOfBounds ∧ r.resetB e m = .error .outOfBounds ∧
    r.flipB e m = .error .outOfBounds := by
  have hl := loadWord_fail (e := e) h
  have hbind : ∀ {α : Type} (f : BitVec (8 * k) → M 8 α), (loadWord e k r.ptr >>= f) m = .error .outOfBounds := by
    intro α f
    show (loadWord e k r.ptr m >>= fun p => f p.1 p.2) = _
    rw [hl]; rfl
  exact ⟨hbind _, hbind _, hbind _, hbind _⟩

/-- Bit 9 of the 16-bit word at byte 0 and bit 1 of the byte at address 1 (little endian) are the same bit; on a big endian machine
it is bit 1 of byte 0. -/
example : bitLoc .little 2 0 9 = bitLoc .little 1 1 1 ∧ bitLoc .big 2 0 9 = bitLoc .big 1 0 1 := by decide

/-- The hypotheses hold for a 16-bit word and one of its own bytes. -/
example : (⟨0, 0x0200#16⟩ : BitRef (8 * 2)).AtB .little 9 ∧ (⟨1, 0x10#8⟩ : BitRef (8 * 1)).AtB .little 12 ∧
    WordMapped (memOf [0xa5#8, 0x12#8]) 2 0 ∧ bitAt (memOf [0xa5#8, 0x12#8]) 9 = some true ∧
    bitAt (memOf [0xa5#8, 0x02#8]) 12 = some false := by
  refine ⟨⟨9, by decide, by decide, by decide⟩, ⟨4, by decide, by decide, by decide⟩, ?_, by decide, by decide⟩
  intro c h1 h2
  have : c = 0 ∨ c = 1 := by omega
  rcases this with rfl | rfl <;> rfl

example : runOn (BitRef.swapMixed .little (⟨0, 0x0200#16⟩ : BitRef (8 * 2)) (⟨1, 0x10#8⟩ : BitRef (8 * 1))) [0xa5#8, 0x02#8] =
    .ok ((), [0xa5#8, 0x10#8]) := by decide +kernel
example : runOn (BitRef.swapMixed .big (⟨0, 0x0200#16⟩ : BitRef (8 * 2)) (⟨1, 0x02#8⟩ : BitRef (8 * 1))) [0x02#8, 0x00#8] =
    .ok ((), [0x00#8, 0x02#8]) := by decide +kernel

end BitLib
