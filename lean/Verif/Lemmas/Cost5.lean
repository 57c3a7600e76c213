import Verif.Lemmas.Cost4
/- How many bits the algorithms of the standard library touch. -/
namespace BitLib
namespace Std

section
variable {α : Type} {t : Slots Int Int Int} {tp : Tape}

theorem bits_call {op : IOp} {next : IAns → Client α} {t' : Slots Int Int Int} {a : IAns} {tp' : Tape}
    (h : op.run (fun _ => .error .badRange) idealIface t tp = .ok ((t', a), tp')) : (Client.call op next).bits t tp = op.bits + (next a).bits t' tp' := by
  rw [Client.bits, h]

theorem bits_cmp {c : Cmp} {i j : Nat} {p q : Int} {k : Bool → Client (Option α)} (hi : t.it i = some p) (hj : t.it j = some q) :
    (ask (.cmpIt c i j) k).bits t tp = (k (c.on p q)).bits t tp :=
  (bits_call (by simp only [IOp.run, useSlot, hi, hj]; rfl)).trans (Nat.zero_add _)
theorem bits_diff {i j : Nat} {p q : Int} {k : Int → Client (Option α)} (hi : t.it i = some p) (hj : t.it j = some q) :
    (askNum (.diffIt i j) k).bits t tp = (k (p - q)).bits t tp :=
  (bits_call (by simp only [IOp.run, useSlot, hi, hj]; rfl)).trans (Nat.zero_add _)
theorem bits_read {r : Nat} {p : Int} {b : Bool} {k : Bool → Client (Option α)} (hr : t.ref r = some p) (hb : tp p = some b) :
    (ask (.read r) k).bits t tp = 1 + (k b).bits t tp := by
  refine bits_call (a := .bool b) ?_
  simp only [IOp.run, useSlot, hr]
  exact TapeM.bind_ok (Tape.get_some hb)
theorem bits_deref {r i : Nat} {p : Int} {k : Client (Option α)} (hi : t.it i = some p) :
    (run (.derefIt r i) k).bits t tp = k.bits (t.putRef r p) tp :=
  (bits_call (by simp only [IOp.run, useSlot, hi]; rfl)).trans (Nat.zero_add _)
theorem bits_inc {i : Nat} {p : Int} {k : Client (Option α)} (hi : t.it i = some p) :
    (run (.incIt i) k).bits t tp = k.bits (t.putIt i (p + 1)) tp :=
  (bits_call (by simp only [IOp.run, useSlot, hi]; rfl)).trans (Nat.zero_add _)
theorem bits_dec {i : Nat} {p : Int} {k : Client (Option α)} (hi : t.it i = some p) :
    (run (.decIt i) k).bits t tp = k.bits (t.putIt i (p - 1)) tp :=
  (bits_call (by simp only [IOp.run, useSlot, hi]; rfl)).trans (Nat.zero_add _)
theorem bits_add {d i : Nat} {p n : Int} {k : Client (Option α)} (hi : t.it i = some p) :
    (run (.addIt d i n) k).bits t tp = k.bits (t.putIt d (p + n)) tp :=
  (bits_call (by simp only [IOp.run, useSlot, hi]; rfl)).trans (Nat.zero_add _)
theorem bits_sub {d i : Nat} {p n : Int} {k : Client (Option α)} (hi : t.it i = some p) :
    (run (.subIt d i n) k).bits t tp = k.bits (t.putIt d (p - n)) tp :=
  (bits_call (by simp only [IOp.run, useSlot, hi]; rfl)).trans (Nat.zero_add _)
theorem bits_copy {d i : Nat} {p : Int} {k : Client (Option α)} (hi : t.it i = some p) :
    (run (.copyIt d i) k).bits t tp = k.bits (t.putIt d p) tp :=
  (bits_call (by simp only [IOp.run, useSlot, hi]; rfl)).trans (Nat.zero_add _)
theorem bits_upd {u : Upd} {r : Nat} {p : Int} {b : Bool} {k : Client (Option α)} (hr : t.ref r = some p) (hb : tp p = some b) :
    (run (.upd u r) k).bits t tp = 1 + k.bits t (fun i => if i = p then some (u.on b) else tp i) := by
  refine bits_call (a := .unit) ?_
  simp only [IOp.run, useSlot, hr]
  exact TapeM.bind_ok ((TapeM.bind_ok (Tape.get_some hb)).trans (Tape.put_some (c := u.on b) hb))
theorem bits_assign {r s : Nat} {p q : Int} {b c : Bool} {k : Client (Option α)} (hr : t.ref r = some p) (hs : t.ref s = some q) (hb : tp q = some b)
    (hc : tp p = some c) : (run (.assign r s) k).bits t tp = 2 + k.bits t (fun i => if i = p then some b else tp i) := by
  refine bits_call (a := .unit) ?_
  simp only [IOp.run, useSlot, hr, hs]
  exact TapeM.bind_ok ((TapeM.bind_ok (Tape.get_some hb)).trans (Tape.put_some hc))
theorem bits_swap {r s : Nat} {p q : Int} {a b : Bool} {k : Client (Option α)} (hr : t.ref r = some p) (hs : t.ref s = some q) (ha : tp p = some a)
    (hb : tp q = some b) : (run (.swap r s) k).bits t tp = 2 + k.bits t (fun i => if i = p then some b else if i = q then some a else tp i) := by
  refine bits_call (a := .unit) ?_
  simp only [IOp.run, useSlot, hr, hs]
  have hp' : (fun i => if i = q then some a else tp i) p = some a := by
    by_cases e : p = q
    · exact if_pos e
    · exact (if_neg e).trans ha
  exact TapeM.bind_ok ((TapeM.bind_ok (Tape.get_some ha)).trans ((TapeM.bind_ok (Tape.get_some hb)).trans
    ((TapeM.bind_ok (Tape.put_some hb)).trans (Tape.put_some hp'))))
theorem bits_done (x : α) : (Client.done x).bits t tp = 0 := rfl

theorem some_put {p : Int} {b : Bool} {i : Int} (h : (tp i).isSome) : (if i = p then some b else tp i).isSome := by
  split
  · rfl
  · exact h
theorem some_put2 {p q : Int} {a b : Bool} {i : Int} (h : (tp i).isSome) : (if i = p then some b else if i = q then some a else tp i).isSome := by
  split
  · rfl
  · exact some_put h

theorem on_ne_self (a : Int) : Cmp.on a (a + (0 : Nat)) .ne = false := by simp [Cmp.on]
theorem on_ne_succ (a : Int) (n : Nat) : Cmp.on a (a + ((n + 1 : Nat) : Int)) .ne = true := by simp [Cmp.on]; omega
end

variable {t : Slots Int Int Int} {tp : Tape}

theorem count_bits (v : Bool) : ∀ (n k : Nat) (t : Slots Int Int Int) (a acc : Int), n < k → t.it 0 = some a → t.it 1 = some (a + n) →
    (∀ i, a ≤ i → i < a + n → (tp i).isSome) → (count v k acc).bits t tp = n
  | 0, k+1, t, a, acc, _, h0, h1, _ => by
    unfold count
    rw [bits_cmp h0 h1, on_ne_self, if_neg (by simp), bits_done]
  | n+1, k+1, t, a, acc, hk, h0, h1, hm => by
    obtain ⟨b, hb⟩ := Option.isSome_iff_exists.1 (hm a (by omega) (by omega))
    unfold count
    rw [bits_cmp h0 h1, on_ne_succ, if_pos rfl, bits_deref h0, bits_read (p := a) (b := b), bits_inc (p := a)]
    any_goals first | exact h0 | exact hb | rfl
    rw [count_bits v n k _ (a + 1) _ (by omega) rfl
      (by rw [it_put, if_neg (by decide), it_putRef, h1]; congr 1; omega) (fun i h2 h3 => hm i (by omega) (by omega))]
    omega

/-- `find` reads the bits up to and including the one it finds. -/
theorem find_bits (v : Bool) : ∀ (n k : Nat) (t : Slots Int Int Int) (a e : Int), n < k → t.it 0 = some a → t.it 1 = some e → a + n ≤ e →
    (∀ i, a ≤ i → i < a + n → tp i = some !v) → n ≤ (find v k).bits t tp
  | 0, k+1, t, a, e, _, h0, h1, _, _ => Nat.zero_le _
  | n+1, k+1, t, a, e, hk, h0, h1, he, hm => by
    have hb := hm a (by omega) (by omega)
    unfold find
    rw [bits_cmp h0 h1, show Cmp.on a e .ne = true by simp [Cmp.on]; omega, if_pos rfl, bits_deref h0, bits_read (p := a) (b := !v), if_neg (by simp), bits_inc (p := a)]
    any_goals first | exact h0 | exact hb | rfl
    have := find_bits v n k ((t.putRef 0 a).putIt 0 (a + 1)) (a + 1) e (by omega) rfl h1 (by omega)
      (fun i h2 h3 => hm i (by omega) (by omega))
    omega

/-- `equal` reads both ranges up to the first difference. -/
theorem equal_bits : ∀ (n k : Nat) (t : Slots Int Int Int) (a d e : Int), n < k → t.it 0 = some a → t.it 1 = some e → t.it 2 = some d → a + n ≤ e →
    (∀ i : Int, 0 ≤ i → i < n → (tp (a + i)).isSome ∧ tp (d + i) = tp (a + i)) → 2 * n ≤ (equal k).bits t tp
  | 0, k+1, t, a, d, e, _, _, _, _, _, _ => Nat.zero_le _
  | n+1, k+1, t, a, d, e, hk, h0, h1, h2, he, hm => by
    have h3 := hm 0 (by omega) (by omega)
    rw [Int.add_zero, Int.add_zero] at h3
    obtain ⟨b, hb⟩ := Option.isSome_iff_exists.1 h3.1
    have hb' := h3.2.trans hb
    unfold equal
    rw [bits_cmp h0 h1, show Cmp.on a e .ne = true by simp [Cmp.on]; omega, if_pos rfl, bits_deref h0, bits_deref (p := d), bits_read (p := a) (b := b),
      bits_read (p := d) (b := b), if_pos rfl, bits_inc (p := a), bits_inc (p := d)]
    any_goals first | exact h0 | exact h2 | exact hb | exact hb' | rfl
    have := equal_bits n k ((((t.putRef 0 a).putRef 1 d).putIt 0 (a + 1)).putIt 2 (d + 1)) (a + 1) (d + 1) e (by omega) rfl h1 rfl (by omega)
      (fun i h2 h3 => by rw [Int.add_assoc, Int.add_assoc]; exact hm (1 + i) (by omega) (by omega))
    omega

theorem fill_bits (v : Bool) : ∀ (n k : Nat) (t : Slots Int Int Int) (tp : Tape) (a : Int), n < k → t.it 0 = some a → t.it 1 = some (a + n) →
    (∀ i, a ≤ i → i < a + n → (tp i).isSome) → (fill v k).bits t tp = n
  | 0, k+1, t, tp, a, _, h0, h1, _ => by
    unfold fill
    rw [bits_cmp h0 h1, on_ne_self, if_neg (by simp), bits_done]
  | n+1, k+1, t, tp, a, hk, h0, h1, hm => by
    obtain ⟨b, hb⟩ := Option.isSome_iff_exists.1 (hm a (by omega) (by omega))
    unfold fill
    rw [bits_cmp h0 h1, on_ne_succ, if_pos rfl, bits_deref h0, bits_upd (p := a) (b := b), bits_inc (p := a)]
    any_goals first | exact h0 | exact hb | rfl
    rw [fill_bits v n k _ _ (a + 1) (by omega) rfl
      (by rw [it_put, if_neg (by decide), it_putRef, h1]; congr 1; omega) (fun i h2 h3 => some_put (hm i (by omega) (by omega)))]
    omega

theorem copyLoop_bits : ∀ (n : Nat) (t : Slots Int Int Int) (tp : Tape) (a d : Int), t.it 0 = some a → t.it 2 = some d →
    (∀ i, a ≤ i → i < a + n → (tp i).isSome) → (∀ i, d ≤ i → i < d + n → (tp i).isSome) → (copyLoop n).bits t tp = 2 * n
  | 0, t, tp, a, d, _, _, _, _ => rfl
  | n+1, t, tp, a, d, h0, h2, hm, hd => by
    obtain ⟨x, hx⟩ := Option.isSome_iff_exists.1 (hm a (by omega) (by omega))
    obtain ⟨y, hy⟩ := Option.isSome_iff_exists.1 (hd d (by omega) (by omega))
    unfold copyLoop
    rw [bits_deref h2, bits_deref (p := a), bits_assign (p := d) (q := a) (b := x) (c := y), bits_inc (p := a), bits_inc (p := d)]
    any_goals first | exact h0 | exact h2 | exact hx | exact hy | rfl
    rw [copyLoop_bits n _ _ (a + 1) (d + 1) rfl rfl (fun i h2 h3 => some_put (hm i (by omega) (by omega)))
      (fun i h2 h3 => some_put (hd i (by omega) (by omega)))]
    omega

theorem copyBackwardLoop_bits : ∀ (n : Nat) (t : Slots Int Int Int) (tp : Tape) (b d : Int), t.it 1 = some b → t.it 2 = some d →
    (∀ i, b - n ≤ i → i < b → (tp i).isSome) → (∀ i, d - n ≤ i → i < d → (tp i).isSome) → (copyBackwardLoop n).bits t tp = 2 * n
  | 0, t, tp, b, d, _, _, _, _ => rfl
  | n+1, t, tp, b, d, h1, h2, hm, hd => by
    obtain ⟨x, hx⟩ := Option.isSome_iff_exists.1 (hm (b - 1) (by omega) (by omega))
    obtain ⟨y, hy⟩ := Option.isSome_iff_exists.1 (hd (d - 1) (by omega) (by omega))
    unfold copyBackwardLoop
    rw [bits_dec h2, bits_dec (p := b), bits_deref (p := d - 1), bits_deref (p := b - 1), bits_assign (p := d - 1) (q := b - 1) (b := x) (c := y)]
    any_goals first | exact h1 | exact h2 | exact hx | exact hy | rfl
    rw [copyBackwardLoop_bits n _ _ (b - 1) (d - 1) rfl rfl (fun i h2 h3 => some_put (hm i (by omega) (by omega)))
      (fun i h2 h3 => some_put (hd i (by omega) (by omega)))]
    omega

theorem transform_bits (f : Bool → Bool) : ∀ (n k : Nat) (t : Slots Int Int Int) (tp : Tape) (a d : Int), n < k → t.it 0 = some a → t.it 1 = some (a + n) →
    t.it 2 = some d → (∀ i, a ≤ i → i < a + n → (tp i).isSome) → (∀ i, d ≤ i → i < d + n → (tp i).isSome) → (transform f k).bits t tp = 2 * n
  | 0, k+1, t, tp, a, d, _, h0, h1, _, _, _ => by
    unfold transform
    rw [bits_cmp h0 h1, on_ne_self, if_neg (by simp), bits_done]
  | n+1, k+1, t, tp, a, d, hk, h0, h1, h2, hm, hd => by
    obtain ⟨x, hx⟩ := Option.isSome_iff_exists.1 (hm a (by omega) (by omega))
    obtain ⟨y, hy⟩ := Option.isSome_iff_exists.1 (hd d (by omega) (by omega))
    unfold transform
    rw [bits_cmp h0 h1, on_ne_succ, if_pos rfl, bits_deref h0, bits_read (p := a) (b := x), bits_deref (p := d), bits_upd (p := d) (b := y), bits_inc (p := a),
      bits_inc (p := d)]
    any_goals first | exact h0 | exact h2 | exact hx | exact hy | rfl
    rw [transform_bits f n k _ _ (a + 1) (d + 1) (by omega) rfl
      (by rw [it_put, if_neg (by decide), it_put, if_neg (by decide), it_putRef, it_putRef, h1]; congr 1; omega) rfl
      (fun i h2 h3 => some_put (hm i (by omega) (by omega))) (fun i h2 h3 => some_put (hd i (by omega) (by omega)))]
    omega

theorem transform2_bits (f : Bool → Bool → Bool) : ∀ (n k : Nat) (t : Slots Int Int Int) (tp : Tape) (a b d : Int), n < k → t.it 0 = some a →
    t.it 1 = some (a + n) → t.it 2 = some b → t.it 3 = some d → (∀ i, a ≤ i → i < a + n → (tp i).isSome) → (∀ i, b ≤ i → i < b + n → (tp i).isSome) →
    (∀ i, d ≤ i → i < d + n → (tp i).isSome) → (transform2 f k).bits t tp = 3 * n
  | 0, k+1, t, tp, a, b, d, _, h0, h1, _, _, _, _, _ => by
    unfold transform2
    rw [bits_cmp h0 h1, on_ne_self, if_neg (by simp), bits_done]
  | n+1, k+1, t, tp, a, b, d, hk, h0, h1, h2, h3, hm, hm2, hd => by
    obtain ⟨x, hx⟩ := Option.isSome_iff_exists.1 (hm a (by omega) (by omega))
    obtain ⟨z, hz⟩ := Option.isSome_iff_exists.1 (hm2 b (by omega) (by omega))
    obtain ⟨y, hy⟩ := Option.isSome_iff_exists.1 (hd d (by omega) (by omega))
    unfold transform2
    rw [bits_cmp h0 h1, on_ne_succ, if_pos rfl, bits_deref h0, bits_read (p := a) (b := x), bits_deref (p := b), bits_read (p := b) (b := z),
      bits_deref (p := d), bits_upd (p := d) (b := y), bits_inc (p := a), bits_inc (p := b), bits_inc (p := d)]
    any_goals first | exact h0 | exact h2 | exact h3 | exact hx | exact hy | exact hz | rfl
    rw [transform2_bits f n k _ _ (a + 1) (b + 1) (d + 1) (by omega) rfl
      (by rw [it_put, if_neg (by decide), it_put, if_neg (by decide), it_put, if_neg (by decide), it_putRef, it_putRef, it_putRef, h1]; congr 1; omega) rfl rfl
      (fun i h2 h3 => some_put (hm i (by omega) (by omega))) (fun i h2 h3 => some_put (hm2 i (by omega) (by omega)))
      (fun i h2 h3 => some_put (hd i (by omega) (by omega)))]
    omega

theorem swapRanges_bits : ∀ (n k : Nat) (t : Slots Int Int Int) (tp : Tape) (a d : Int), n < k → t.it 0 = some a → t.it 1 = some (a + n) →
    t.it 2 = some d → (∀ i, a ≤ i → i < a + n → (tp i).isSome) → (∀ i, d ≤ i → i < d + n → (tp i).isSome) → (swapRanges k).bits t tp = 2 * n
  | 0, k+1, t, tp, a, d, _, h0, h1, h2, _, _ => by
    unfold swapRanges
    rw [bits_cmp h0 h1, on_ne_self, if_neg (by simp), bits_done]
  | n+1, k+1, t, tp, a, d, hk, h0, h1, h2, hm, hd => by
    obtain ⟨x, hx⟩ := Option.isSome_iff_exists.1 (hm a (by omega) (by omega))
    obtain ⟨y, hy⟩ := Option.isSome_iff_exists.1 (hd d (by omega) (by omega))
    unfold swapRanges
    rw [bits_cmp h0 h1, on_ne_succ, if_pos rfl, bits_deref h0, bits_deref (p := d), bits_swap (p := a) (q := d) (a := x) (b := y), bits_inc (p := a),
      bits_inc (p := d)]
    any_goals first | exact h0 | exact h1 | exact h2 | exact hx | exact hy | rfl
    rw [swapRanges_bits n k _ _ (a + 1) (d + 1) (by omega) rfl
      (by rw [it_put, if_neg (by decide), it_put, if_neg (by decide), it_putRef, it_putRef, h1]; congr 1; omega) rfl
      (fun i h2 h3 => some_put2 (hm i (by omega) (by omega))) (fun i h2 h3 => some_put2 (hd i (by omega) (by omega)))]
    omega

theorem reverseLoop_bits : ∀ (k : Nat) (t : Slots Int Int Int) (tp : Tape) (a b : Int), b - a + 1 < 2 * k → t.it 0 = some a → t.it 1 = some b →
    (∀ i, a ≤ i → i ≤ b → (tp i).isSome) → b - a ≤ (reverseLoop k).bits t tp
  | 0, t, tp, a, b, hk, _, _, _ => by omega
  | k+1, t, tp, a, b, hk, h0, h1, hm => by
    unfold reverseLoop
    rw [bits_cmp h0 h1]
    by_cases hab : a < b
    · rw [show Cmp.on a b .lt = true by simp [Cmp.on]; omega, if_pos rfl]
      obtain ⟨x, hx⟩ := Option.isSome_iff_exists.1 (hm a (by omega) (by omega))
      obtain ⟨y, hy⟩ := Option.isSome_iff_exists.1 (hm b (by omega) (by omega))
      rw [bits_deref h0, bits_deref (p := b), bits_swap (p := a) (q := b) (a := x) (b := y), bits_inc (p := a), bits_dec (p := b)]
      any_goals first | exact h0 | exact h1 | exact h2 | exact hx | exact hy | rfl
      have := reverseLoop_bits k ((((t.putRef 0 a).putRef 1 b).putIt 0 (a + 1)).putIt 1 (b - 1))
        (fun i => if i = a then some y else if i = b then some x else tp i) (a + 1) (b - 1) (by omega) rfl rfl
        (fun i h2 h3 => some_put2 (hm i (by omega) (by omega)))
      omega
    · omega

theorem reverse_bits (n k : Nat) (t : Slots Int Int Int) (tp : Tape) (a : Int) (hk : n < k) (h0 : t.it 0 = some a) (h1 : t.it 1 = some (a + n))
    (hm : ∀ i, a ≤ i → i < a + n → (tp i).isSome) : n ≤ (reverse k).bits t tp + 1 := by
  unfold reverse
  rw [bits_cmp h0 h1]
  by_cases hn : n = 0
  · omega
  · rw [show Cmp.on a (a + n) .eq = false by simp [Cmp.on]; omega, if_neg (by simp), bits_dec h1]
    have := reverseLoop_bits k (t.putIt 1 (a + n - 1)) tp a (a + n - 1) (by omega) h0 rfl (fun i h2 h3 => hm i h2 (by omega))
    omega

theorem swapUp_bits (next : Client (Option Unit)) : ∀ (s : Nat) (t : Slots Int Int Int) (tp : Tape) (a d : Int), t.it 0 = some a → t.it 4 = some d →
    (∀ i, a ≤ i → i < a + s → (tp i).isSome) → (∀ i, d ≤ i → i < d + s → (tp i).isSome) → 2 * s ≤ (swapUp s next).bits t tp
  | 0, _, _, _, _, _, _, _, _ => Nat.zero_le _
  | s+1, t, tp, a, d, h0, h4, hm, hd => by
    obtain ⟨x, hx⟩ := Option.isSome_iff_exists.1 (hm a (by omega) (by omega))
    obtain ⟨y, hy⟩ := Option.isSome_iff_exists.1 (hd d (by omega) (by omega))
    unfold swapUp
    rw [bits_deref h0, bits_deref (p := d), bits_swap (p := a) (q := d) (a := x) (b := y), bits_inc (p := a), bits_inc (p := d)]
    any_goals first | exact h0 | exact h4 | exact hx | exact hy | rfl
    have := swapUp_bits next s ((((t.putRef 0 a).putRef 1 d).putIt 0 (a + 1)).putIt 4 (d + 1))
      (fun i => if i = a then some y else if i = d then some x else tp i) (a + 1) (d + 1) rfl rfl
      (fun i h2 h3 => some_put2 (hm i (by omega) (by omega))) (fun i h2 h3 => some_put2 (hd i (by omega) (by omega)))
    omega

theorem swapDown_bits (next : Client (Option Unit)) : ∀ (s : Nat) (t : Slots Int Int Int) (tp : Tape) (a d : Int), t.it 0 = some a → t.it 4 = some d →
    (∀ i, a - s ≤ i → i < a → (tp i).isSome) → (∀ i, d - s ≤ i → i < d → (tp i).isSome) → 2 * s ≤ (swapDown s next).bits t tp
  | 0, _, _, _, _, _, _, _, _ => Nat.zero_le _
  | s+1, t, tp, a, d, h0, h4, hm, hd => by
    obtain ⟨x, hx⟩ := Option.isSome_iff_exists.1 (hm (a - 1) (by omega) (by omega))
    obtain ⟨y, hy⟩ := Option.isSome_iff_exists.1 (hd (d - 1) (by omega) (by omega))
    unfold swapDown
    rw [bits_dec h0, bits_dec (p := d), bits_deref (p := a - 1), bits_deref (p := d - 1), bits_swap (p := a - 1) (q := d - 1) (a := x) (b := y)]
    any_goals first | exact h0 | exact h4 | exact hx | exact hy | rfl
    have := swapDown_bits next s ((((t.putIt 0 (a - 1)).putIt 4 (d - 1)).putRef 0 (a - 1)).putRef 1 (d - 1))
      (fun i => if i = a - 1 then some y else if i = d - 1 then some x else tp i) (a - 1) (d - 1) rfl rfl
      (fun i h2 h3 => some_put2 (hm i (by omega) (by omega))) (fun i h2 h3 => some_put2 (hd i (by omega) (by omega)))
    omega

theorem rotate_bits (rounds n k : Nat) (t : Slots Int Int Int) (tp : Tape) (a : Int) (hr : n ≤ rounds) (hk0 : 0 < k) (hk : k < n) (h0 : t.it 0 = some a)
    (h1 : t.it 1 = some (a + n)) (h2 : t.it 2 = some (a + k)) (hm : ∀ i, a ≤ i → i < a + n → (tp i).isSome) :
    n ≤ (rotate rounds).bits t tp := by
  unfold rotate
  rw [bits_cmp h0 h2, show Cmp.on a (a + k) .eq = false by simp [Cmp.on]; omega, if_neg (by simp), bits_cmp h1 h2,
    show Cmp.on (a + n) (a + k) .eq = false by simp [Cmp.on]; omega, if_neg (by simp), bits_diff h1 h0, bits_diff h2 h0]
  by_cases c3 : a + (k : Int) - a = a + n - a - (a + k - a)
  · rw [if_pos c3, bits_copy h2, bits_copy (t := t.putIt 3 (a + k)) (i := 2) (p := a + k) h2, swapRanges_bits k rounds ((t.putIt 3 (a + k)).putIt 1 (a + k)) tp a (a + k) (by omega) h0 rfl h2
      (fun i h3 h4 => hm i h3 (by omega)) (fun i h3 h4 => hm i (by omega) (by omega))]
    omega
  · rw [if_neg c3, bits_diff h1 h2, bits_add h0, show (a + n - a : Int).toNat = n by omega, show (a + k - a : Int).toNat = k by omega]
    cases rounds with
    | zero => omega
    | succ rounds =>
      unfold rotateLoop
      by_cases c4 : k < n - k
      · rw [if_pos c4, bits_add (t := t.putIt 3 _) (i := 0) (p := a) h0]
        refine le_trans ?_ (swapUp_bits _ (n - k) _ tp a (a + k) h0 rfl (fun i h3 h4 => hm i h3 (by omega)) (fun i h3 h4 => hm i (by omega) (by omega)))
        omega
      · rw [if_neg c4, bits_add (t := t.putIt 3 _) (i := 0) (p := a) h0, bits_sub (p := a + n) rfl]
        refine le_trans ?_ (swapDown_bits _ (n - (n - k)) _ tp (a + n - ((n - k : Nat) : Int)) (a + n) rfl rfl
          (fun i h3 h4 => hm i (by omega) (by omega)) (fun i h3 h4 => hm i (by omega) (by omega)))
        omega

end Std
end BitLib
