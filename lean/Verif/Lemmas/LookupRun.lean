import Verif.Lemmas.StdAlg
import Verif.Lemmas.Ref
import Verif.Model.Lookup
/- Lemmas for C102: the loops of the standard library with a reference as the value, on a tape. -/
namespace BitLib.Lookup
open BitLib.Std

variable {tp : Tape}

theorem findRef_ideal (v : Bool) (q : Int) (hq : tp q = some v) : ∀ (n k : Nat) (t : Slots Int Int Int) (a : Int), n < k → t.it 0 = some a →
    t.it 1 = some (a + n) → t.ref 2 = some q → (∀ i, a ≤ i → i < a + n → (tp i).isSome) →
    ∃ t' r, (findRef k).ideal t tp = .ok ((some (), t'), tp) ∧ t'.it 0 = some r ∧ a ≤ r ∧ r ≤ a + n ∧
      (∀ i, a ≤ i → i < r → tp i = some (!v)) ∧ (r < a + n → tp r = some v)
  | 0, k+1, t, a, _, h0, h1, _, _ => by
    unfold findRef
    rw [ideal_cmp h0 h1, show Cmp.on a (a + (0 : Nat)) .ne = false by simp [Cmp.on], if_neg (by simp), ideal_done]
    exact ⟨t, a, rfl, h0, by omega, by omega, fun i h2 h3 => by omega, fun h => by omega⟩
  | n+1, k+1, t, a, hk, h0, h1, hd, hm => by
    unfold findRef
    rw [ideal_cmp h0 h1, show Cmp.on a (a + ((n + 1 : Nat) : Int)) .ne = true by simp [Cmp.on]; omega, if_pos rfl, ideal_deref h0]
    obtain ⟨b, hb⟩ := Option.isSome_iff_exists.1 (hm a (by omega) (by omega))
    rw [ideal_read (p := a) (b := b), ideal_read (p := q) (b := v)]
    any_goals first | exact h0 | exact h1 | exact hd | exact hq | exact hb | rfl
    by_cases hv : b = v
    · rw [if_pos hv, ideal_done]
      exact ⟨_, a, rfl, h0, by omega, by omega, fun i h2 h3 => by omega, fun _ => by rw [hb, hv]⟩
    · rw [if_neg hv, ideal_inc (p := a)]
      any_goals first | exact h0 | exact h1 | exact hd | exact hq | exact hb | rfl
      obtain ⟨t', r, h2, h3, h4, h5, h6, h7⟩ := findRef_ideal v q hq n k ((t.putRef 0 a).putIt 0 (a + 1)) (a + 1) (by omega) rfl
        (by rw [it_put, if_neg (by decide), it_putRef, h1]; congr 1; omega) hd (fun i h2 h3 => hm i (by omega) (by omega))
      refine ⟨t', r, h2, h3, by omega, by omega, fun i h8 h9 => ?_, fun h8 => h7 (by omega)⟩
      by_cases e : i = a
      · rw [e, hb]; revert hv; cases b <;> cases v <;> decide
      · exact h6 i (by omega) h9

theorem countRef_ideal (v : Bool) (q : Int) (hq : tp q = some v) : ∀ (n k : Nat) (t : Slots Int Int Int) (a acc : Int), n < k → t.it 0 = some a →
    t.it 1 = some (a + n) → t.ref 2 = some q → (∀ i, a ≤ i → i < a + n → (tp i).isSome) →
    ∃ t', (countRef k acc).ideal t tp = .ok ((some (acc + ((List.range n).countP fun i : Nat => decide (tp (a + (i : Int)) = some v) : Nat)), t'), tp)
  | 0, k+1, t, a, acc, _, h0, h1, _, _ => by
    unfold countRef
    rw [ideal_cmp h0 h1, show Cmp.on a (a + (0 : Nat)) .ne = false by simp [Cmp.on], if_neg (by simp), ideal_done]
    exact ⟨t, by simp⟩
  | n+1, k+1, t, a, acc, hk, h0, h1, hd, hm => by
    unfold countRef
    rw [ideal_cmp h0 h1, show Cmp.on a (a + ((n + 1 : Nat) : Int)) .ne = true by simp [Cmp.on]; omega, if_pos rfl, ideal_deref h0]
    obtain ⟨b, hb⟩ := Option.isSome_iff_exists.1 (hm a (by omega) (by omega))
    rw [ideal_read (p := a) (b := b), ideal_read (p := q) (b := v), ideal_inc (p := a)]
    any_goals first | exact h0 | exact h1 | exact hd | exact hq | exact hb | rfl
    obtain ⟨t', h2⟩ := countRef_ideal v q hq n k ((t.putRef 0 a).putIt 0 (a + 1)) (a + 1) (if b = v then acc + 1 else acc) (by omega) rfl
      (by rw [it_put, if_neg (by decide), it_putRef, h1]; congr 1; omega) hd (fun i h2 h3 => hm i (by omega) (by omega))
    refine ⟨t', h2.trans ?_⟩
    congr 4
    rw [List.range_succ_eq_map, List.countP_cons, List.countP_map]
    have e : ((fun i : Nat => decide (tp (a + (i : Int)) = some v)) ∘ Nat.succ) = fun i : Nat => decide (tp (a + 1 + (i : Int)) = some v) := by
      funext i
      show decide (tp (a + ((i + 1 : Nat) : Int)) = some v) = _
      rw [show a + ((i + 1 : Nat) : Int) = a + 1 + (i : Int) by omega]
    rw [e, show a + ((0 : Nat) : Int) = a by omega, hb]
    by_cases hv : b = v
    · simp [hv]; omega
    · simp [hv]

/-- The bit of the value may lie in the range: it is then assigned to itself. -/
theorem fillRef_ideal (v : Bool) (q : Int) : ∀ (n k : Nat) (t : Slots Int Int Int) (tp : Tape) (a : Int), n < k → t.it 0 = some a →
    t.it 1 = some (a + n) → t.ref 2 = some q → tp q = some v → (∀ i, a ≤ i → i < a + n → (tp i).isSome) →
    ∃ t', (fillRef k).ideal t tp = .ok ((some (), t'), wrote tp a (a + n) fun _ => some v)
  | 0, k+1, t, tp, a, _, h0, h1, _, _, _ => by
    unfold fillRef
    rw [ideal_cmp h0 h1, show Cmp.on a (a + (0 : Nat)) .ne = false by simp [Cmp.on], if_neg (by simp), ideal_done]
    refine ⟨t, ?_⟩
    congr 2
    funext i
    unfold wrote
    rw [if_neg (by omega)]
  | n+1, k+1, t, tp, a, hk, h0, h1, hd, hq, hm => by
    unfold fillRef
    rw [ideal_cmp h0 h1, show Cmp.on a (a + ((n + 1 : Nat) : Int)) .ne = true by simp [Cmp.on]; omega, if_pos rfl, ideal_deref h0]
    obtain ⟨b, hb⟩ := Option.isSome_iff_exists.1 (hm a (by omega) (by omega))
    rw [ideal_assign (p := a) (q := q) (b := v) (c := b), ideal_inc (p := a)]
    any_goals first | exact h0 | exact h1 | exact hd | exact hq | exact hb | rfl
    obtain ⟨t', h2⟩ := fillRef_ideal v q n k ((t.putRef 0 a).putIt 0 (a + 1)) (fun i => if i = a then some v else tp i) (a + 1) (by omega) rfl
      (by rw [it_put, if_neg (by decide), it_putRef, h1]; congr 1; omega) hd (by rw [hq]; split <;> rfl)
      (fun i h2 h3 => by rw [if_neg (by omega)]; exact hm i (by omega) (by omega))
    refine ⟨t', h2.trans ?_⟩
    congr 2
    funext i
    unfold wrote
    dsimp only
    by_cases e : i = a
    · rw [if_neg (by omega), if_pos e, if_pos (by omega)]
    · by_cases e2 : a + 1 ≤ i ∧ i < a + 1 + n
      · rw [if_pos e2, if_pos (by omega)]
      · rw [if_neg e2, if_neg e, if_neg (by omega)]

end BitLib.Lookup
