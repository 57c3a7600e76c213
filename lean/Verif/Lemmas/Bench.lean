import Verif.SpecBench
import Verif.Lemmas.Tests
/-
Lemmas for C85: a benchmark keeps the sizes of its containers.
-/
namespace BitLib.Bench
open Op (at')
open BitLib.Tests

theorem f32_le {n : Nat} (h : n < 2 ^ 32) : f32 n ≤ 2 ^ 32 := by
  unfold f32
  split_ifs with h0
  · omega
  · have hlog : n.log2 < 32 := (Nat.log2_lt (by omega)).2 h
    have hlog2 : 24 ≤ n.log2 := (Nat.le_log2 (by omega)).2 (by omega)
    have hq : n / 2 ^ (n.log2 - 23) < 2 ^ 24 := by
      rw [Nat.div_lt_iff_lt_mul (by positivity), ← pow_add]
      have := Nat.lt_log2_self (n := n)
      rwa [show 24 + (n.log2 - 23) = n.log2 + 1 by omega]
    dsimp only
    have hp : 2 ^ (n.log2 - 23) ≤ 2 ^ 8 := Nat.pow_le_pow_right (by omega) (by omega)
    split_ifs
    · calc _ ≤ 2 ^ 24 * 2 ^ 8 := Nat.mul_le_mul (by omega) hp
        _ = _ := by norm_num
    · calc _ ≤ 2 ^ 24 * 2 ^ 8 := Nat.mul_le_mul (by omega) hp
        _ = _ := by norm_num

/-- Every call of the model with its precondition keeps all sizes, except the members of `bit_vector`. -/
theorem same_spec {w : Nat} (hw : 0 < w) (ls ls' : List (List Bool)) (c : Call w) (a : Ans) (hc : c.Alg) (hp : c.Pre ls) (hs : c.Spec ls ls' a) :
    Same ls ls' := by
  by_cases hpl : (Act.call c).Plain
  · obtain ⟨rfl, -⟩ := hs.unique (spec_std ls c hpl)
    exact same_std ls c hc hp
  · cases c with
    | shiftLeft i a b n =>
      obtain ⟨hi, hab, hb⟩ := hp
      simp only [Call.Spec] at hs
      split_ifs at hs with h
      · obtain ⟨rfl, -⟩ := hs
        refine same_splice ls hi ?_
        rw [List.length_append, slice_length _ hb, vacatedL_length _ (by omega) hb]
        omega
      all_goals (rw [hs.1]; exact .refl _)
    | shiftRight i a b n =>
      obtain ⟨hi, hab, hb⟩ := hp
      simp only [Call.Spec] at hs
      split_ifs at hs with h
      · obtain ⟨rfl, -⟩ := hs
        refine same_splice ls hi ?_
        rw [List.length_append, slice_length _ (by omega), vacatedR_length hw _ h.1 (by omega)]
        omega
      all_goals (rw [hs.1]; exact .refl _)
    | vec op => exact hc.elim
    | _ => exact absurd trivial hpl

/-- So does the assignment of an element. -/
theorem same_set_elem (ls : List (List Bool)) (i k : Nat) (x : Bool) (hi : i < ls.length) : Same ls (ls.set i ((at' ls i).set k x)) :=
  same_set ls hi (by rw [List.length_set])

/-- Running `k` times a call that is valid for these sizes. -/
theorem along_replicate {w : Nat} {R : List (List Bool) → Call w → Prop} (c : Call w) (I : List (List Bool) → Prop)
    (hR : ∀ ls, I ls → R ls c) (hI : ∀ ls ls' a, I ls → c.Spec ls ls' a → I ls') (k : Nat) : ∀ ls, I ls → AlongC R (List.replicate k c) ls := by
  induction k with
  | zero => intro ls _; trivial
  | succ k ih =>
    intro ls h
    exact ⟨hR ls h, fun ls' a s => ih ls' (hI ls ls' a h s)⟩

theorem AlongC.append {w : Nat} {R : List (List Bool) → Call w → Prop} (cs ds : List (Call w)) (J : List (List Bool) → Prop)
    (hd : ∀ ls, J ls → AlongC R ds ls) : ∀ ls, AlongC R cs ls → (∀ ls' as, SpecRun ls cs ls' as → J ls') → AlongC R (cs ++ ds) ls := by
  induction cs with
  | nil => intro ls _ hj; exact hd ls (hj ls [] (.nil ls))
  | cons c cs ih =>
    intro ls h hj
    exact ⟨h.1, fun ls' a s => ih ls' (h.2 ls' a s) fun ls2 as s2 => hj ls2 (a :: as) (.cons s s2)⟩

theorem Start.at0 {N : Nat} {b : B} {ls : List (List Bool)} (s : Start N b ls) : ∀ i, i < (words N b).length →
    i < ls.length ∧ (at' ls i).length = 64 * (words N b).getD i 0 := by
  intro i hi
  have hl : ls.length = (words N b).length := by have := congrArg List.length s.sizes; simpa using this
  refine ⟨by omega, ?_⟩
  have h1 := congrArg (·[i]?) s.sizes
  simp only [List.getElem?_map] at h1
  unfold Op.at'
  rw [List.getElem?_eq_getElem (by omega : i < ls.length)] at h1 ⊢
  rw [List.getElem?_eq_getElem hi] at h1
  rw [List.getD_eq_getElem?_getD, List.getElem?_eq_getElem hi]
  simpa using h1

/-- The loop keeps the sizes of the containers. -/
def Sized (N : Nat) (b : B) (ls : List (List Bool)) : Prop :=
  ∀ i, i < (words N b).length → i < ls.length ∧ (at' ls i).length = 64 * (words N b).getD i 0

theorem Sized.of_same {N : Nat} {b : B} {ls ls' : List (List Bool)} (h : Sized N b ls) (s : Same ls ls') : Sized N b ls' := fun i hi =>
  ⟨by rw [s.1]; exact (h i hi).1, (s.2 i).trans (h i hi).2⟩

theorem body_valid (S : ShiftSem 64) (N : Nat) (hN : N < 2 ^ 32) (b : B) (hf : Fits N b) (ls : List (List Bool)) (hs : Sized N b ls) :
    (body N b).Pre ls ∧ (body N b).Lim S ls := by
  have hcw : last N = 64 * ceilWords N := rfl
  have hle : last N < 2 ^ 32 + 64 := by
    have := f32_le hN
    unfold last ceilWords
    omega
  have h0 := hs 0
  have h1 := hs 1
  cases b <;> simp only [words, List.length_cons, List.length_nil, List.getD_cons_zero, List.getD_cons_succ, Fits] at h0 h1 hf <;>
    simp only [body, Call.Pre, Call.Lim, Call.Part, Op.Pre, Op.Lim, Op.SizeLim]
  all_goals obtain ⟨a1, a2⟩ := h0 (by omega)
  case shiftLeft => exact ⟨⟨a1, by omega, by omega⟩, .inl fun h => hf (by omega)⟩
  case shiftRight => exact ⟨⟨a1, by omega, by omega⟩, .inl fun h => hf (by omega)⟩
  case shiftLeftUU => exact ⟨⟨a1, by omega, by omega⟩, .inl fun h => by omega⟩
  case shiftRightUU => exact ⟨⟨a1, by omega, by omega⟩, .inl fun h => by omega⟩
  case reverse => exact ⟨⟨a1, by omega, by omega⟩, .inl fun h => by omega⟩
  case reverseUU => exact ⟨⟨a1, by omega, by omega⟩, .inl fun h => by omega⟩
  case rotate d => exact ⟨⟨⟨a1, by omega, by omega⟩, by omega, by omega⟩, hf, RotFits.of_len (by push_cast; omega)⟩
  case fill => exact ⟨⟨a1, by omega, by omega⟩, trivial⟩
  case count => exact ⟨⟨a1, by omega, by omega⟩, .inl (by omega)⟩
  case find => exact ⟨⟨a1, by omega, by omega⟩, trivial⟩
  case notAA => exact ⟨⟨fun x i hi => by simp [hi], ⟨a1, by omega, by omega⟩, ⟨a1, by omega, by omega⟩, fun _ => by omega⟩, trivial⟩
  case notUU => exact ⟨⟨fun x i hi => by simp [hi], ⟨a1, by omega, by omega⟩, ⟨a1, by omega, by omega⟩, fun _ => by omega⟩, trivial⟩
  case set => exact ⟨⟨a1, by omega⟩, trivial, .inl trivial⟩
  case get => exact ⟨⟨a1, by omega⟩, trivial⟩
  case profile => exact ⟨⟨a1, by omega, by omega⟩, .inl fun h => by omega⟩
  all_goals obtain ⟨b1, b2⟩ := h1 (by omega)
  case copy => exact ⟨⟨⟨a1, by omega, by omega⟩, ⟨b1, by omega, by omega⟩, fun h => by omega⟩, trivial⟩
  case move => exact ⟨⟨⟨a1, by omega, by omega⟩, ⟨b1, by omega, by omega⟩, fun h => by omega⟩, trivial⟩
  case copyBackward => exact ⟨⟨⟨a1, by omega, by omega⟩, ⟨b1, by omega, by omega⟩, fun h => by omega⟩, .inl fun h => by omega⟩
  case equal => exact ⟨⟨⟨a1, by omega, by omega⟩, ⟨b1, by omega, by omega⟩⟩, trivial⟩
  case swapAA => exact ⟨⟨⟨a1, by omega, by omega⟩, ⟨b1, by omega, by omega⟩, fun h => by omega⟩, trivial⟩
  case swapUU => exact ⟨⟨⟨a1, by omega, by omega⟩, ⟨b1, by omega, by omega⟩, fun h => by omega⟩, trivial⟩
  case andAA => exact ⟨⟨fun x y i hi => by simp, ⟨a1, by omega, by omega⟩, ⟨b1, by omega, by omega⟩, ⟨b1, by omega, by omega⟩,
      fun h => by omega, fun h => by omega⟩, trivial⟩
  case andUU => exact ⟨⟨fun x y i hi => by simp, ⟨a1, by omega, by omega⟩, ⟨b1, by omega, by omega⟩, ⟨b1, by omega, by omega⟩,
      fun h => by omega, fun h => by omega⟩, trivial⟩

theorem body_alg (N : Nat) (b : B) (hb : b ≠ .set) : (body N b).Alg := by
  cases b <;> first | exact absurd rfl hb | simp only [body, Call.Alg]

theorem body_sized (S : ShiftSem 64) (N : Nat) (hN : N < 2 ^ 32) (b : B) (hf : Fits N b) (ls ls' : List (List Bool)) (a : Ans)
    (hs : Sized N b ls) (h : (body N b).Spec ls ls' a) : Sized N b ls' := by
  have hp := (body_valid S N hN b hf ls hs).1
  refine hs.of_same ?_
  by_cases hb : b = .set
  · subst hb
    obtain ⟨rfl, -⟩ := h
    exact same_set_elem ls 0 _ _ hp.1
  · exact same_spec (by decide) ls ls' _ a (body_alg N b hb) hp h

/-- A list of element reads and assignments of existing elements. -/
def Elementwise (ls : List (List Bool)) : Call 64 → Prop
  | .get i k => i < ls.length ∧ k < (at' ls i).length
  | .vec (.set i k _) => i < ls.length ∧ k < (at' ls i).length
  | _ => False

theorem elementwise_same (S : ShiftSem 64) (ls0 : List (List Bool)) (cs : List (Call 64)) (h : ∀ c ∈ cs, Elementwise ls0 c) :
    ∀ ls, Same ls0 ls → AlongC (fun ls c => c.Pre ls ∧ c.Lim S ls) cs ls ∧ ∀ ls' as, SpecRun ls cs ls' as → Same ls0 ls' := by
  induction cs with
  | nil => intro ls hs; exact ⟨trivial, fun ls' as s => by cases s; exact hs⟩
  | cons c cs ih =>
    intro ls hs
    have hc := h c List.mem_cons_self
    have hstep : (c.Pre ls ∧ c.Lim S ls) ∧ ∀ ls1 a, c.Spec ls ls1 a → Same ls0 ls1 := by
      unfold Elementwise at hc
      split at hc
      · rename_i i k
        have := hs.2 i
        unfold sz at this
        exact ⟨⟨⟨by rw [hs.1]; exact hc.1, by rw [this]; exact hc.2⟩, trivial⟩, fun ls1 a s => by rw [s.1]; exact hs⟩
      · rename_i i k x
        have := hs.2 i
        unfold sz at this
        have hi : i < ls.length := by rw [hs.1]; exact hc.1
        refine ⟨⟨⟨hi, by rw [this]; exact hc.2⟩, trivial, .inl trivial⟩, fun ls1 a s => ?_⟩
        obtain ⟨rfl, -⟩ := s
        exact hs.trans (same_set_elem ls i k x hi)
      · exact hc.elim
    have ih' := ih fun c hc => h c (List.mem_cons_of_mem _ hc)
    refine ⟨⟨hstep.1, fun ls1 a s => (ih' ls1 (hstep.2 ls1 a s)).1⟩, fun ls' as s => ?_⟩
    rcases s with _ | ⟨s1, s2⟩
    exact (ih' _ (hstep.2 _ _ s1)).2 _ _ s2

theorem setup_elementwise (N : Nat) (b : B) (hf : Fits N b) (ls : List (List Bool)) (hs : Sized N b ls) : ∀ c ∈ setup N ls b, Elementwise ls c := by
  intro c hc
  have h0 := hs 0
  have h1 := hs 1
  cases b <;> simp only [setup, List.not_mem_nil] at hc
  case find =>
    rw [List.mem_singleton] at hc
    subst hc
    simp only [words, List.length_cons, List.length_nil, List.getD_cons_zero] at h0
    obtain ⟨a1, a2⟩ := h0 (by omega)
    exact ⟨a1, by rw [a2]; exact hf.1⟩
  case equal =>
    simp only [words, List.length_cons, List.length_nil, List.getD_cons_zero, List.getD_cons_succ] at h0 h1
    obtain ⟨a1, a2⟩ := h0 (by omega)
    obtain ⟨b1, b2⟩ := h1 (by omega)
    simp only [List.mem_flatMap, List.mem_range, List.mem_cons, List.not_mem_nil, or_false] at hc
    obtain ⟨t, ht, rfl | rfl⟩ := hc
    · exact ⟨a1, by omega⟩
    · exact ⟨b1, by omega⟩

theorem SpecRun.append {cs ds : List (Call 64)} {ls ls' : List (List Bool)} {as : List Ans} (h : SpecRun ls (cs ++ ds) ls' as) :
    ∃ l1 a1 a2, SpecRun ls cs l1 a1 ∧ SpecRun l1 ds ls' a2 ∧ as = a1 ++ a2 := by
  induction cs generalizing ls as with
  | nil => exact ⟨ls, [], as, .nil ls, h, rfl⟩
  | cons c cs ih =>
    rcases h with _ | ⟨s1, s2⟩
    obtain ⟨l1, a1, a2, h1, h2, rfl⟩ := ih s2
    exact ⟨l1, _ :: a1, a2, .cons s1 h1, h2, rfl⟩

/-- Repeating a call that changes nothing. -/
theorem SpecRun.repeat {c : Call 64} {ls ls' : List (List Bool)} {x : Ans} {as : List Ans} {k : Nat}
    (hc : ∀ ls' a, c.Spec ls ls' a → ls' = ls ∧ a = x) (h : SpecRun ls (List.replicate k c) ls' as) : ls' = ls ∧ as = List.replicate k x := by
  induction k generalizing as with
  | zero => cases h; exact ⟨rfl, rfl⟩
  | succ k ih =>
    rcases h with _ | ⟨s1, s2⟩
    obtain ⟨rfl, rfl⟩ := hc _ _ s1
    obtain ⟨h1, rfl⟩ := ih s2
    exact ⟨h1, rfl⟩

/-- Repeating a call that applies `f` to the only vector. -/
theorem SpecRun.iterate {c : Call 64} {l : List Bool} {ls' : List (List Bool)} {as : List Ans} {k L : Nat} (f : List Bool → List Bool)
    (hf : ∀ l, l.length = L → (f l).length = L) (hc : ∀ l ls' a, l.length = L → c.Spec [l] ls' a → ls' = [f l])
    (hl : l.length = L) (h : SpecRun [l] (List.replicate k c) ls' as) : ls' = [f^[k] l] := by
  induction k generalizing l as with
  | zero => cases h; rfl
  | succ k ih =>
    rcases h with _ | ⟨s1, s2⟩
    obtain rfl := hc l _ _ hl s1
    exact ih (hf l hl) s2

theorem slice_full (l : List Bool) : slice l 0 l.length = l := by simp [slice]

theorem splice_full (l s : List Bool) (h : s.length = l.length) : splice l 0 s = s := by simp [splice, h]

theorem set_eq_splice (l : List Bool) (k : Nat) (x : Bool) (h : k < l.length) : l.set k x = splice l k [x] := by
  refine List.ext_getElem? fun i => ?_
  rw [splice_get _ _ (by simp; omega), List.getElem?_set]
  by_cases hk : k = i
  · subst hk; rw [if_pos rfl, if_pos h, if_pos (by simp)]; simp
  · rw [if_neg hk, if_neg (by simp; omega)]

/-- `std::copy` of `n` elements, one by one. -/
theorem copied (n : Nat) (ls ls' : List (List Bool)) (as : List Ans) (hl : 1 < ls.length) (h0 : 1 + n ≤ (at' ls 0).length)
    (h1 : 2 + n ≤ (at' ls 1).length)
    (h : SpecRun ls ((List.range n).flatMap fun t => [.get 0 (1 + t), .vec (.set 1 (2 + t) (((at' ls 0)[1 + t]?).getD false) : Op 64)]) ls' as) :
    ls' = ls.set 1 (splice (at' ls 1) 2 (slice (at' ls 0) 1 (1 + n))) := by
  induction n generalizing ls' as with
  | zero =>
    cases h
    have : splice (at' ls 1) 2 (slice (at' ls 0) 1 (1 + 0)) = at' ls 1 := by
      have := slice_length (at' ls 0) (a := 1) (b := 1) (by omega)
      rw [Nat.sub_self, List.length_eq_zero_iff] at this
      rw [Nat.add_zero, this]
      simp [splice]
    rw [this]
    refine (list_set_self ?_).symm
    unfold Op.at'
    rw [List.getElem?_eq_getElem hl]
    rfl
  | succ n ih =>
    rw [List.range_succ, List.flatMap_append] at h
    obtain ⟨l1, a1, a2, s1, s2, rfl⟩ := SpecRun.append h
    obtain rfl := ih l1 a1 (by omega) (by omega) s1
    rcases s2 with _ | ⟨⟨rfl, rfl⟩, s3⟩
    rcases s3 with _ | ⟨⟨rfl, rfl⟩, s4⟩
    cases s4
    show (ls.set 1 _).set 1 ((at' (ls.set 1 _) 1).set (2 + n) _) = _
    have hlen := slice_length (at' ls 0) (a := 1) (b := 1 + n) (by omega)
    rw [List.set_set, at'_set _ _ _ _ hl, if_pos rfl, set_eq_splice _ _ _ (by rw [splice_length _ _ (by omega)]; omega)]
    congr 1
    refine List.ext_getElem? fun i => ?_
    have hlen2 := slice_length (at' ls 0) (a := 1) (b := 1 + (n + 1)) (by omega)
    rw [splice_get _ _ (by rw [splice_length _ _ (by omega)]; simp; omega), splice_get _ _ (by omega), splice_get _ _ (by omega), slice_get, slice_get]
    rw [hlen, hlen2, List.length_singleton]
    by_cases hi : i = 2 + n
    · subst hi
      rw [if_pos (by omega), if_pos (by omega), if_pos (by omega), Nat.sub_self, show 1 + (2 + n - 2) = 1 + n by omega]
      rw [List.getElem?_eq_getElem (by omega : 1 + n < (at' ls 0).length)]
      rfl
    · rw [if_neg (by omega)]
      by_cases h2 : 2 ≤ i ∧ i < 2 + n
      · rw [if_pos (by omega), if_pos (by omega), if_pos (by omega), if_pos (by omega)]
      · rw [if_neg (by omega), if_neg (by omega)]

/-- Repeated shifts of all but two elements. -/
theorem shiftAll (L : Nat) (hbig : 2000 < L) (k : Nat) (l : List Bool) (hl : l.length = L) (ls' : List (List Bool)) (as : List Ans)
    (h : SpecRun [l] (List.replicate k (.shiftLeft 0 2 L 1028 : Call 64)) ls' as) :
    ∃ l', ls' = [l'] ∧ l'.length = l.length ∧ (∀ i, i < 2 → l'[i]? = l[i]?) ∧
      ∀ i, 2 ≤ i → i < l.length → l'[i]? = l[i + 1028 * min k ((l.length - 1 - i) / 1028)]? := by
  have hlen : ∀ l : List Bool, l.length = L → (splice l 2 (slice l (2 + 1028) L ++ slice l (L - 1028) L)).length = L := fun l hl => by
    rw [splice_length _ _ (by rw [List.length_append, slice_length _ (by omega), slice_length _ (by omega)]; omega), hl]
  have hget : ∀ (l : List Bool) (i : Nat), l.length = L → (splice l 2 (slice l (2 + 1028) L ++ slice l (L - 1028) L))[i]? =
      if 2 ≤ i ∧ i + 1028 < L then l[i + 1028]? else l[i]? := fun l i hl => by
    rw [splice_get _ _ (by rw [List.length_append, slice_length _ (by omega), slice_length _ (by omega)]; omega), List.length_append,
      slice_length _ (by omega), slice_length _ (by omega), List.getElem?_append, slice_length _ (by omega), slice_get, slice_get]
    by_cases h1 : 2 ≤ i ∧ i + 1028 < L
    · rw [if_pos (c := 2 ≤ i ∧ i < 2 + (L - (2 + 1028) + (L - (L - 1028)))) (by omega), if_pos (c := i - 2 < L - (2 + 1028)) (by omega),
        if_pos (c := 2 + 1028 + (i - 2) < L) (by omega), if_pos h1, show 2 + 1028 + (i - 2) = i + 1028 by omega]
    · rw [if_neg h1]
      by_cases h2 : 2 ≤ i ∧ i < L
      · rw [if_pos (c := 2 ≤ i ∧ i < 2 + (L - (2 + 1028) + (L - (L - 1028)))) (by omega), if_neg (c := i - 2 < L - (2 + 1028)) (by omega),
          if_pos (c := L - 1028 + (i - 2 - (L - (2 + 1028))) < L) (by omega),
          show L - 1028 + (i - 2 - (L - (2 + 1028))) = i by omega]
      · rw [if_neg (c := 2 ≤ i ∧ i < 2 + (L - (2 + 1028) + (L - (L - 1028)))) (by omega)]
  have := SpecRun.iterate (L := L) (fun l => splice l 2 (slice l (2 + 1028) L ++ slice l (L - 1028) L)) hlen (fun l ls' a hl s => by
    have s' : (if 0 < 1028 ∧ 2 + 1028 < L then
      ls' = [l].set 0 (splice l 2 (slice l (2 + 1028) L ++ vacatedL 64 l 2 L 1028)) ∧ a = .pos ((L - 1028 : Nat) : Int)
      else ls' = [l] ∧ a = .pos (if 1028 = 0 then (L : Int) else ((2 : Nat) : Int))) := s
    rw [if_pos (by omega)] at s'
    have hv : vacatedL 64 l 2 L 1028 = slice l (L - 1028) L := by
      unfold vacatedL
      rw [if_neg (by omega)]
    rw [s'.1, hv]
    rfl) hl h
  refine ⟨_, this, ?_⟩
  clear this h
  have key : ∀ k, ((fun l => splice l 2 (slice l (2 + 1028) L ++ slice l (L - 1028) L))^[k] l).length = L ∧ ∀ i : Nat,
      ((fun l => splice l 2 (slice l (2 + 1028) L ++ slice l (L - 1028) L))^[k] l)[i]? =
        if 2 ≤ i ∧ i < L then l[i + 1028 * min k ((L - 1 - i) / 1028)]? else l[i]? := by
    intro k
    induction k with
    | zero => exact ⟨hl, fun i => by simp⟩
    | succ k ih =>
      obtain ⟨i1, i2⟩ := ih
      rw [Function.iterate_succ_apply']
      refine ⟨hlen _ i1, fun i => ?_⟩
      rw [hget _ _ i1]
      by_cases h1 : 2 ≤ i ∧ i + 1028 < L
      · rw [if_pos h1, i2, if_pos (by omega), if_pos (by omega),
          show i + 1028 + 1028 * min k ((L - 1 - (i + 1028)) / 1028) = i + 1028 * min (k + 1) ((L - 1 - i) / 1028) by omega]
      · rw [if_neg h1, i2]
        by_cases h2 : 2 ≤ i ∧ i < L
        · rw [if_pos h2, if_pos h2, show i + 1028 * min k ((L - 1 - i) / 1028) = i + 1028 * min (k + 1) ((L - 1 - i) / 1028) by omega]
        · rw [if_neg h2, if_neg h2]
  obtain ⟨k1, k2⟩ := key k
  rw [hl]
  refine ⟨k1, fun i hi => ?_, fun i h1 h2 => ?_⟩
  · rw [k2, if_neg (by omega)]
  · rw [k2, if_pos ⟨h1, h2⟩]

end BitLib.Bench
