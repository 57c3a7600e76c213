import Verif.Lemmas.Client
import Verif.Model.StdAlg
/- Lemmas for the theorems about the algorithms of the standard library: what they do on a tape. -/
namespace BitLib
namespace Std

section
variable {α : Type} {t : Slots Int Int Int} {tp : Tape}

theorem ideal_cmp {c : Cmp} {i j : Nat} {p q : Int} {k : Bool → Client (Option α)} (hi : t.it i = some p) (hj : t.it j = some q) :
    (ask (.cmpIt c i j) k).ideal t tp = (k (c.on p q)).ideal t tp := by
  simp only [Client.ideal, ask, Client.run, IOp.run, useSlot, hi, hj]; rfl
theorem ideal_diff {i j : Nat} {p q : Int} {k : Int → Client (Option α)} (hi : t.it i = some p) (hj : t.it j = some q) :
    (askNum (.diffIt i j) k).ideal t tp = (k (p - q)).ideal t tp := by
  simp only [Client.ideal, askNum, Client.run, IOp.run, useSlot, hi, hj]; rfl
theorem ideal_read {r : Nat} {p : Int} {b : Bool} {k : Bool → Client (Option α)} (hr : t.ref r = some p) (hb : tp p = some b) :
    (ask (.read r) k).ideal t tp = (k b).ideal t tp := by
  simp only [Client.ideal, ask, Client.run, IOp.run, useSlot, hr]
  show ((Tape.get p >>= fun x => _) >>= _) tp = _
  rw [TapeM.bind_ok (TapeM.bind_ok (Tape.get_some hb))]
theorem ideal_deref {r i : Nat} {p : Int} {k : Client (Option α)} (hi : t.it i = some p) :
    (run (.derefIt r i) k).ideal t tp = k.ideal (t.putRef r p) tp := by
  simp only [Client.ideal, run, Client.run, IOp.run, useSlot, hi]; rfl
theorem ideal_inc {i : Nat} {p : Int} {k : Client (Option α)} (hi : t.it i = some p) :
    (run (.incIt i) k).ideal t tp = k.ideal (t.putIt i (p + 1)) tp := by
  simp only [Client.ideal, run, Client.run, IOp.run, useSlot, hi]; rfl
theorem ideal_dec {i : Nat} {p : Int} {k : Client (Option α)} (hi : t.it i = some p) :
    (run (.decIt i) k).ideal t tp = k.ideal (t.putIt i (p - 1)) tp := by
  simp only [Client.ideal, run, Client.run, IOp.run, useSlot, hi]; rfl
theorem ideal_upd {u : Upd} {r : Nat} {p : Int} {b : Bool} {k : Client (Option α)} (hr : t.ref r = some p) (hb : tp p = some b) :
    (run (.upd u r) k).ideal t tp = k.ideal t (fun i => if i = p then some (u.on b) else tp i) := by
  simp only [Client.ideal, run, Client.run, IOp.run, useSlot, hr]
  show (((Tape.get p >>= fun x => Tape.put p (u.on x)) >>= _) >>= _) tp = _
  rw [TapeM.bind_ok (TapeM.bind_ok ((TapeM.bind_ok (Tape.get_some hb)).trans (Tape.put_some (c := u.on b) hb)))]
theorem ideal_assign {r s : Nat} {p q : Int} {b c : Bool} {k : Client (Option α)} (hr : t.ref r = some p) (hs : t.ref s = some q) (hb : tp q = some b)
    (hc : tp p = some c) : (run (.assign r s) k).ideal t tp = k.ideal t (fun i => if i = p then some b else tp i) := by
  simp only [Client.ideal, run, Client.run, IOp.run, useSlot, hr, hs]
  show (((Tape.get q >>= fun x => _) >>= _) >>= _) tp = _
  rw [TapeM.bind_ok (TapeM.bind_ok ((TapeM.bind_ok (Tape.get_some hb)).trans (Tape.put_some hc)))]
theorem ideal_swap {r s : Nat} {p q : Int} {a b : Bool} {k : Client (Option α)} (hr : t.ref r = some p) (hs : t.ref s = some q) (ha : tp p = some a)
    (hb : tp q = some b) : (run (.swap r s) k).ideal t tp = k.ideal t (fun i => if i = p then some b else if i = q then some a else tp i) := by
  simp only [Client.ideal, run, Client.run, IOp.run, useSlot, hr, hs]
  show (((Tape.get p >>= fun x => _) >>= _) >>= _) tp = _
  have hp' : (fun i => if i = q then some a else tp i) p = some a := by
    by_cases e : p = q
    · exact if_pos e
    · exact (if_neg e).trans ha
  rw [TapeM.bind_ok (TapeM.bind_ok ((TapeM.bind_ok (Tape.get_some ha)).trans ((TapeM.bind_ok (Tape.get_some hb)).trans
    ((TapeM.bind_ok (Tape.put_some hb)).trans (Tape.put_some hp')))))]

@[simp] theorem it_putRef (r : Nat) (p : Int) : (t.putRef r p).it = t.it := rfl
@[simp] theorem ref_putIt (r : Nat) (p : Int) : (t.putIt r p).ref = t.ref := rfl
theorem it_put (i j : Nat) (p : Int) : (t.putIt i p).it j = if j = i then some p else t.it j := rfl
theorem ref_put (i j : Nat) (p : Int) : (t.putRef i p).ref j = if j = i then some p else t.ref j := rfl

end

variable {t : Slots Int Int Int} {tp : Tape}

theorem ideal_done {α : Type} (x : α) : (Client.done x).ideal t tp = .ok ((x, t), tp) := rfl

theorem find_ideal (v : Bool) : ∀ (n k : Nat) (t : Slots Int Int Int) (a : Int), n < k → t.it 0 = some a → t.it 1 = some (a + n) →
    (∀ i, a ≤ i → i < a + n → (tp i).isSome) →
    ∃ t' r, (find v k).ideal t tp = .ok ((some (), t'), tp) ∧ t'.it 0 = some r ∧ a ≤ r ∧ r ≤ a + n ∧
      (∀ i, a ≤ i → i < r → tp i = some (!v)) ∧ (r < a + n → tp r = some v)
  | 0, k+1, t, a, _, h0, h1, _ => by
    unfold find
    rw [ideal_cmp h0 h1, show Cmp.on a (a + (0 : Nat)) .ne = false by simp [Cmp.on], if_neg (by simp), ideal_done]
    exact ⟨t, a, rfl, h0, by omega, by omega, fun i h2 h3 => by omega, fun h => by omega⟩
  | n+1, k+1, t, a, hk, h0, h1, hm => by
    unfold find
    rw [ideal_cmp h0 h1, show Cmp.on a (a + ((n + 1 : Nat) : Int)) .ne = true by simp [Cmp.on]; omega, if_pos rfl, ideal_deref h0]
    obtain ⟨b, hb⟩ := Option.isSome_iff_exists.1 (hm a (by omega) (by omega))
    rw [ideal_read (p := a) (b := b)]
    any_goals first | exact h0 | exact h1 | exact h2 | exact hd3 | exact hb | exact hx | exact hy | exact hz | rfl
    by_cases hv : b = v
    · rw [if_pos hv, ideal_done]
      exact ⟨_, a, rfl, h0, by omega, by omega, fun i h2 h3 => by omega, fun _ => by rw [hb, hv]⟩
    · rw [if_neg hv, ideal_inc (p := a)]
      any_goals first | exact h0 | exact h1 | exact h2 | exact hd3 | exact hb | exact hx | exact hy | exact hz | rfl
      obtain ⟨t', r, h2, h3, h4, h5, h6, h7⟩ := find_ideal v n k ((t.putRef 0 a).putIt 0 (a + 1)) (a + 1) (by omega) rfl
        (by rw [it_put, if_neg (by decide), it_putRef, h1]; congr 1; omega) (fun i h2 h3 => hm i (by omega) (by omega))
      refine ⟨t', r, h2, h3, by omega, by omega, fun i h8 h9 => ?_, fun h8 => h7 (by omega)⟩
      by_cases e : i = a
      · rw [e, hb]; revert hv; cases b <;> cases v <;> decide
      · exact h6 i (by omega) h9

theorem count_ideal (v : Bool) : ∀ (n k : Nat) (t : Slots Int Int Int) (a acc : Int), n < k → t.it 0 = some a → t.it 1 = some (a + n) →
    (∀ i, a ≤ i → i < a + n → (tp i).isSome) →
    ∃ t', (count v k acc).ideal t tp = .ok ((some (acc + ((List.range n).countP fun i : Nat => decide (tp (a + (i : Int)) = some v) : Nat)), t'), tp)
  | 0, k+1, t, a, acc, _, h0, h1, _ => by
    unfold count
    rw [ideal_cmp h0 h1, show Cmp.on a (a + (0 : Nat)) .ne = false by simp [Cmp.on], if_neg (by simp), ideal_done]
    exact ⟨t, by simp⟩
  | n+1, k+1, t, a, acc, hk, h0, h1, hm => by
    unfold count
    rw [ideal_cmp h0 h1, show Cmp.on a (a + ((n + 1 : Nat) : Int)) .ne = true by simp [Cmp.on]; omega, if_pos rfl, ideal_deref h0]
    obtain ⟨b, hb⟩ := Option.isSome_iff_exists.1 (hm a (by omega) (by omega))
    rw [ideal_read (p := a) (b := b), ideal_inc (p := a)]
    any_goals first | exact h0 | exact h1 | exact h2 | exact hd3 | exact hb | exact hx | exact hy | exact hz | rfl
    obtain ⟨t', h2⟩ := count_ideal v n k ((t.putRef 0 a).putIt 0 (a + 1)) (a + 1) (if b = v then acc + 1 else acc) (by omega) rfl
      (by rw [it_put, if_neg (by decide), it_putRef, h1]; congr 1; omega) (fun i h2 h3 => hm i (by omega) (by omega))
    refine ⟨t', h2.trans ?_⟩
    congr 4
    rw [List.range_succ_eq_map, List.countP_cons, List.countP_map]
    have e : ((fun i : Nat => decide (tp (a + (i : Int)) = some v)) ∘ Nat.succ) = fun i : Nat => decide (tp (a + 1 + (i : Int)) = some v) := by
      funext i
      show decide (tp (a + ((i + 1 : Nat) : Int)) = some v) = _
      rw [show a + ((i + 1 : Nat) : Int) = a + 1 + (i : Int) by omega]
    rw [e, show a + ((0 : Nat) : Int) = a by omega, hb]
    by_cases hv : b = v
    · simp [hv]; omega
    · simp [hv]

theorem equal_ideal : ∀ (n k : Nat) (t : Slots Int Int Int) (a d : Int), n < k → t.it 0 = some a → t.it 1 = some (a + n) → t.it 2 = some d →
    (∀ i, a ≤ i → i < a + n → (tp i).isSome) → (∀ i, d ≤ i → i < d + n → (tp i).isSome) →
    ∃ t' b, (equal k).ideal t tp = .ok ((some b, t'), tp) ∧ (b = true ↔ ∀ i : Int, 0 ≤ i → i < n → tp (a + i) = tp (d + i))
  | 0, k+1, t, a, d, _, h0, h1, _, _, _ => by
    unfold equal
    rw [ideal_cmp h0 h1, show Cmp.on a (a + (0 : Nat)) .ne = false by simp [Cmp.on], if_neg (by simp), ideal_done]
    exact ⟨t, true, rfl, fun _ i h2 h3 => by omega, fun _ => rfl⟩
  | n+1, k+1, t, a, d, hk, h0, h1, h2, hm, hd => by
    unfold equal
    rw [ideal_cmp h0 h1, show Cmp.on a (a + ((n + 1 : Nat) : Int)) .ne = true by simp [Cmp.on]; omega, if_pos rfl, ideal_deref h0,
      ideal_deref (p := d)]
    any_goals first | exact h0 | exact h1 | exact h2 | exact hd3 | exact hb | exact hx | exact hy | exact hz | rfl
    obtain ⟨x, hx⟩ := Option.isSome_iff_exists.1 (hm a (by omega) (by omega))
    obtain ⟨y, hy⟩ := Option.isSome_iff_exists.1 (hd d (by omega) (by omega))
    rw [ideal_read (p := a) (b := x), ideal_read (p := d) (b := y)]
    any_goals first | exact h0 | exact h1 | exact h2 | exact hd3 | exact hb | exact hx | exact hy | exact hz | rfl
    by_cases hv : x = y
    · rw [if_pos hv, ideal_inc (p := a), ideal_inc (p := d)]
      any_goals first | exact h0 | exact h1 | exact h2 | exact hd3 | exact hb | exact hx | exact hy | exact hz | rfl
      obtain ⟨t', b, h3, h4⟩ := equal_ideal n k ((((t.putRef 0 a).putRef 1 d).putIt 0 (a + 1)).putIt 2 (d + 1)) (a + 1) (d + 1) (by omega) rfl
        (by rw [it_put, if_neg (by decide), it_put, if_neg (by decide), it_putRef, it_putRef, h1]; congr 1; omega) rfl
        (fun i h2 h3 => hm i (by omega) (by omega)) (fun i h2 h3 => hd i (by omega) (by omega))
      refine ⟨t', b, h3, h4.trans ⟨fun h i h5 h6 => ?_, fun h i h5 h6 => ?_⟩⟩
      · by_cases e : i = 0
        · rw [e, show a + 0 = a by omega, show d + 0 = d by omega, hx, hy, hv]
        · have := h (i - 1) (by omega) (by omega)
          rw [show a + 1 + (i - 1) = a + i by omega, show d + 1 + (i - 1) = d + i by omega] at this
          exact this
      · have := h (i + 1) (by omega) (by omega)
        rw [show a + (i + 1) = a + 1 + i by omega, show d + (i + 1) = d + 1 + i by omega] at this
        exact this
    · rw [if_neg hv, ideal_done]
      refine ⟨_, false, rfl, ⟨fun h => (Bool.false_ne_true h).elim, fun h => ?_⟩⟩
      have := h 0 (by omega) (by omega)
      rw [show a + 0 = a by omega, show d + 0 = d by omega, hx, hy] at this
      exact absurd (Option.some.inj this) hv

/-- The bits of a tape after `f` has been written from `a` to `b`. -/
def wrote (tp : Tape) (a b : Int) (f : Int → Option Bool) : Tape := fun i => if a ≤ i ∧ i < b then f i else tp i

theorem fill_ideal (v : Bool) : ∀ (n k : Nat) (t : Slots Int Int Int) (tp : Tape) (a : Int), n < k → t.it 0 = some a → t.it 1 = some (a + n) →
    (∀ i, a ≤ i → i < a + n → (tp i).isSome) →
    ∃ t', (fill v k).ideal t tp = .ok ((some (), t'), wrote tp a (a + n) fun _ => some v)
  | 0, k+1, t, tp, a, _, h0, h1, _ => by
    unfold fill
    rw [ideal_cmp h0 h1, show Cmp.on a (a + (0 : Nat)) .ne = false by simp [Cmp.on], if_neg (by simp), ideal_done]
    refine ⟨t, ?_⟩
    congr 2
    funext i
    unfold wrote
    rw [if_neg (by omega)]
  | n+1, k+1, t, tp, a, hk, h0, h1, hm => by
    unfold fill
    rw [ideal_cmp h0 h1, show Cmp.on a (a + ((n + 1 : Nat) : Int)) .ne = true by simp [Cmp.on]; omega, if_pos rfl, ideal_deref h0]
    obtain ⟨b, hb⟩ := Option.isSome_iff_exists.1 (hm a (by omega) (by omega))
    rw [ideal_upd (p := a) (b := b), ideal_inc (p := a)]
    any_goals first | exact h0 | exact h1 | exact h2 | exact hd3 | exact hb | exact hx | exact hy | exact hz | rfl
    obtain ⟨t', h2⟩ := fill_ideal v n k ((t.putRef 0 a).putIt 0 (a + 1)) (fun i => if i = a then some v else tp i) (a + 1) (by omega) rfl
      (by rw [it_put, if_neg (by decide), it_putRef, h1]; congr 1; omega)
      (fun i h2 h3 => by rw [if_neg (by omega)]; exact hm i (by omega) (by omega))
    refine ⟨t', h2.trans ?_⟩
    congr 2
    funext i
    unfold wrote
    dsimp only
    by_cases e : i = a
    · rw [if_neg (by omega), if_pos e, if_pos (by omega)]
    · by_cases e2 : a + 1 ≤ i ∧ i < a + 1 + n
      · rw [if_pos e2, if_pos (by omega)]
      · rw [if_neg e2, if_neg e, if_neg (by omega)]

theorem copyLoop_ideal : ∀ (n : Nat) (t : Slots Int Int Int) (tp : Tape) (a d : Int), t.it 0 = some a → t.it 2 = some d →
    (∀ i, a ≤ i → i < a + n → (tp i).isSome) → (∀ i, d ≤ i → i < d + n → (tp i).isSome) → (d ≤ a ∨ a + n ≤ d) →
    ∃ t', (copyLoop n).ideal t tp = .ok ((some (), t'), wrote tp d (d + n) fun i => tp (a + (i - d))) ∧ t'.it 2 = some (d + n)
  | 0, t, tp, a, d, h0, h2, _, _, _ => by
    unfold copyLoop
    rw [ideal_done]
    refine ⟨t, ?_, by rw [h2]; congr 1; omega⟩
    congr 2
    funext i
    unfold wrote
    rw [if_neg (by omega)]
  | n+1, t, tp, a, d, h0, h2, hm, hd, hov => by
    unfold copyLoop
    obtain ⟨x, hx⟩ := Option.isSome_iff_exists.1 (hm a (by omega) (by omega))
    obtain ⟨y, hy⟩ := Option.isSome_iff_exists.1 (hd d (by omega) (by omega))
    rw [ideal_deref h2, ideal_deref (p := a), ideal_assign (p := d) (q := a) (b := x) (c := y), ideal_inc (p := a),
      ideal_inc (p := d)]
    any_goals first | exact h0 | exact h1 | exact h2 | exact hd3 | exact hb | exact hx | exact hy | exact hz | rfl
    obtain ⟨t', h3, h4⟩ := copyLoop_ideal n ((((t.putRef 1 d).putRef 0 a).putIt 0 (a + 1)).putIt 2 (d + 1)) (fun i => if i = d then some x else tp i) (a + 1)
      (d + 1) rfl rfl
      (fun i h5 h6 => by
        by_cases e : i = d
        · rw [if_pos e]; rfl
        · rw [if_neg e]; exact hm i (by omega) (by omega))
      (fun i h5 h6 => by rw [if_neg (by omega)]; exact hd i (by omega) (by omega)) (by omega)
    refine ⟨t', h3.trans ?_, by rw [h4]; congr 1; omega⟩
    congr 2
    funext i
    unfold wrote
    dsimp only
    by_cases e : i = d
    · rw [if_neg (by omega), if_pos e, if_pos (by omega), e, show a + (d - d) = a by omega, hx]
    · by_cases e2 : d + 1 ≤ i ∧ i < d + 1 + n
      · rw [if_pos e2, if_neg (by omega), if_pos (by omega)]
        congr 1; omega
      · rw [if_neg e2, if_neg e, if_neg (by omega)]

theorem copyBackwardLoop_ideal : ∀ (n : Nat) (t : Slots Int Int Int) (tp : Tape) (b d : Int), t.it 1 = some b → t.it 2 = some d →
    (∀ i, b - n ≤ i → i < b → (tp i).isSome) → (∀ i, d - n ≤ i → i < d → (tp i).isSome) → (b ≤ d ∨ d ≤ b - n) →
    ∃ t', (copyBackwardLoop n).ideal t tp = .ok ((some (), t'), wrote tp (d - n) d fun i => tp (b - n + (i - (d - n)))) ∧ t'.it 2 = some (d - n)
  | 0, t, tp, b, d, h1, h2, _, _, _ => by
    unfold copyBackwardLoop
    rw [ideal_done]
    refine ⟨t, ?_, by rw [h2]; congr 1; omega⟩
    congr 2
    funext i
    unfold wrote
    rw [if_neg (by omega)]
  | n+1, t, tp, b, d, h1, h2, hm, hd, hov => by
    unfold copyBackwardLoop
    obtain ⟨x, hx⟩ := Option.isSome_iff_exists.1 (hm (b - 1) (by omega) (by omega))
    obtain ⟨y, hy⟩ := Option.isSome_iff_exists.1 (hd (d - 1) (by omega) (by omega))
    rw [ideal_dec h2, ideal_dec (p := b), ideal_deref (p := d - 1), ideal_deref (p := b - 1),
      ideal_assign (p := d - 1) (q := b - 1) (b := x) (c := y)]
    any_goals first | exact h0 | exact h1 | exact h2 | exact hd3 | exact hb | exact hx | exact hy | exact hz | rfl
    obtain ⟨t', h3, h4⟩ := copyBackwardLoop_ideal n ((((t.putIt 2 (d - 1)).putIt 1 (b - 1)).putRef 1 (d - 1)).putRef 0 (b - 1))
      (fun i => if i = d - 1 then some x else tp i) (b - 1) (d - 1) rfl rfl
      (fun i h5 h6 => by
        by_cases e : i = d - 1
        · rw [if_pos e]; rfl
        · rw [if_neg e]; exact hm i (by omega) (by omega))
      (fun i h5 h6 => by rw [if_neg (by omega)]; exact hd i (by omega) (by omega)) (by omega)
    refine ⟨t', h3.trans ?_, by rw [h4]; congr 1; omega⟩
    congr 2
    funext i
    unfold wrote
    dsimp only
    by_cases e : i = d - 1
    · rw [if_neg (by omega), if_pos e, if_pos (by omega), e, ← hx]
      congr 1; omega
    · by_cases e2 : d - 1 - n ≤ i ∧ i < d - 1
      · rw [if_pos e2, if_neg (by omega), if_pos (by omega)]
        congr 1; omega
      · rw [if_neg e2, if_neg e, if_neg (by omega)]

theorem transform_ideal (f : Bool → Bool) : ∀ (n k : Nat) (t : Slots Int Int Int) (tp : Tape) (a d : Int), n < k → t.it 0 = some a → t.it 1 = some (a + n) →
    t.it 2 = some d → (∀ i, a ≤ i → i < a + n → (tp i).isSome) → (∀ i, d ≤ i → i < d + n → (tp i).isSome) → (d ≤ a ∨ a + n ≤ d) →
    ∃ t', (transform f k).ideal t tp = .ok ((some (), t'), wrote tp d (d + n) fun i => (tp (a + (i - d))).map f) ∧ t'.it 2 = some (d + n)
  | 0, k+1, t, tp, a, d, _, h0, h1, h2, _, _, _ => by
    unfold transform
    rw [ideal_cmp h0 h1, show Cmp.on a (a + (0 : Nat)) .ne = false by simp [Cmp.on], if_neg (by simp), ideal_done]
    refine ⟨t, ?_, by rw [h2]; congr 1; omega⟩
    congr 2
    funext i
    unfold wrote
    rw [if_neg (by omega)]
  | n+1, k+1, t, tp, a, d, hk, h0, h1, h2, hm, hd, hov => by
    unfold transform
    obtain ⟨x, hx⟩ := Option.isSome_iff_exists.1 (hm a (by omega) (by omega))
    obtain ⟨y, hy⟩ := Option.isSome_iff_exists.1 (hd d (by omega) (by omega))
    rw [ideal_cmp h0 h1, show Cmp.on a (a + ((n + 1 : Nat) : Int)) .ne = true by simp [Cmp.on]; omega, if_pos rfl, ideal_deref h0,
      ideal_read (p := a) (b := x), ideal_deref (p := d), ideal_upd (p := d) (b := y), ideal_inc (p := a),
      ideal_inc (p := d)]
    any_goals first | exact h0 | exact h1 | exact h2 | exact hd3 | exact hb | exact hx | exact hy | exact hz | rfl
    obtain ⟨t', h3, h4⟩ := transform_ideal f n k ((((t.putRef 0 a).putRef 1 d).putIt 0 (a + 1)).putIt 2 (d + 1))
      (fun i => if i = d then some (f x) else tp i) (a + 1) (d + 1) (by omega) rfl
      (by rw [it_put, if_neg (by decide), it_put, if_neg (by decide), it_putRef, it_putRef, h1]; congr 1; omega) rfl
      (fun i h5 h6 => by
        by_cases e : i = d
        · rw [if_pos e]; rfl
        · rw [if_neg e]; exact hm i (by omega) (by omega))
      (fun i h5 h6 => by rw [if_neg (by omega)]; exact hd i (by omega) (by omega)) (by omega)
    refine ⟨t', h3.trans ?_, by rw [h4]; congr 1; omega⟩
    congr 2
    funext i
    unfold wrote
    dsimp only
    by_cases e : i = d
    · rw [if_neg (by omega), if_pos e, if_pos (by omega), e, show a + (d - d) = a by omega, hx]; rfl
    · by_cases e2 : d + 1 ≤ i ∧ i < d + 1 + n
      · rw [if_pos e2, if_neg (by omega), if_pos (by omega)]
        congr 2; omega
      · rw [if_neg e2, if_neg e, if_neg (by omega)]

theorem transform2_ideal (f : Bool → Bool → Bool) : ∀ (n k : Nat) (t : Slots Int Int Int) (tp : Tape) (a b d : Int), n < k → t.it 0 = some a →
    t.it 1 = some (a + n) → t.it 2 = some b → t.it 3 = some d → (∀ i, a ≤ i → i < a + n → (tp i).isSome) → (∀ i, b ≤ i → i < b + n → (tp i).isSome) →
    (∀ i, d ≤ i → i < d + n → (tp i).isSome) → (d ≤ a ∨ a + n ≤ d) → (d ≤ b ∨ b + n ≤ d) →
    ∃ t', (transform2 f k).ideal t tp = .ok ((some (), t'), wrote tp d (d + n) fun i => zipBit f (tp (a + (i - d))) (tp (b + (i - d)))) ∧
      t'.it 3 = some (d + n)
  | 0, k+1, t, tp, a, b, d, _, h0, h1, h2, hd3, _, _, _, _, _ => by
    unfold transform2
    rw [ideal_cmp h0 h1, show Cmp.on a (a + (0 : Nat)) .ne = false by simp [Cmp.on], if_neg (by simp), ideal_done]
    refine ⟨t, ?_, by rw [hd3]; congr 1; omega⟩
    congr 2
    funext i
    unfold wrote
    rw [if_neg (by omega)]
  | n+1, k+1, t, tp, a, b, d, hk, h0, h1, h2, hd3, hm, hm2, hd, hov, hov2 => by
    unfold transform2
    obtain ⟨x, hx⟩ := Option.isSome_iff_exists.1 (hm a (by omega) (by omega))
    obtain ⟨z, hz⟩ := Option.isSome_iff_exists.1 (hm2 b (by omega) (by omega))
    obtain ⟨y, hy⟩ := Option.isSome_iff_exists.1 (hd d (by omega) (by omega))
    rw [ideal_cmp h0 h1, show Cmp.on a (a + ((n + 1 : Nat) : Int)) .ne = true by simp [Cmp.on]; omega, if_pos rfl, ideal_deref h0,
      ideal_read (p := a) (b := x), ideal_deref (p := b), ideal_read (p := b) (b := z), ideal_deref (p := d), ideal_upd (p := d) (b := y),
      ideal_inc (p := a), ideal_inc (p := b),
      ideal_inc (p := d)]
    any_goals first | exact h0 | exact h1 | exact h2 | exact hd3 | exact hb | exact hx | exact hy | exact hz | rfl
    obtain ⟨t', h3, h4⟩ := transform2_ideal f n k ((((((t.putRef 0 a).putRef 2 b).putRef 1 d).putIt 0 (a + 1)).putIt 2 (b + 1)).putIt 3 (d + 1))
      (fun i => if i = d then some (f x z) else tp i) (a + 1) (b + 1) (d + 1) (by omega) rfl
      (by rw [it_put, if_neg (by decide), it_put, if_neg (by decide), it_put, if_neg (by decide), it_putRef, it_putRef, it_putRef, h1]; congr 1; omega)
      rfl rfl
      (fun i h5 h6 => by
        by_cases e : i = d
        · rw [if_pos e]; rfl
        · rw [if_neg e]; exact hm i (by omega) (by omega))
      (fun i h5 h6 => by
        by_cases e : i = d
        · rw [if_pos e]; rfl
        · rw [if_neg e]; exact hm2 i (by omega) (by omega))
      (fun i h5 h6 => by rw [if_neg (by omega)]; exact hd i (by omega) (by omega)) (by omega) (by omega)
    refine ⟨t', h3.trans ?_, by rw [h4]; congr 1; omega⟩
    congr 2
    funext i
    unfold wrote
    dsimp only
    by_cases e : i = d
    · rw [if_neg (by omega), if_pos e, if_pos (by omega), e, show a + (d - d) = a by omega, show b + (d - d) = b by omega, hx, hz]; rfl
    · by_cases e2 : d + 1 ≤ i ∧ i < d + 1 + n
      · rw [if_pos e2, if_neg (by omega), if_neg (by omega), if_pos (by omega), show a + 1 + (i - (d + 1)) = a + (i - d) by omega,
          show b + 1 + (i - (d + 1)) = b + (i - d) by omega]
      · rw [if_neg e2, if_neg e, if_neg (by omega)]

theorem swapRanges_ideal : ∀ (n k : Nat) (t : Slots Int Int Int) (tp : Tape) (a d : Int), n < k → t.it 0 = some a → t.it 1 = some (a + n) →
    t.it 2 = some d → (∀ i, a ≤ i → i < a + n → (tp i).isSome) → (∀ i, d ≤ i → i < d + n → (tp i).isSome) → (a + n ≤ d ∨ d + n ≤ a) →
    ∃ t', (swapRanges k).ideal t tp = .ok ((some (), t'), fun i => if a ≤ i ∧ i < a + n then tp (d + (i - a)) else
      if d ≤ i ∧ i < d + n then tp (a + (i - d)) else tp i) ∧ t'.it 2 = some (d + n) ∧ t'.it 3 = t.it 3
  | 0, k+1, t, tp, a, d, _, h0, h1, h2, _, _, _ => by
    unfold swapRanges
    rw [ideal_cmp h0 h1, show Cmp.on a (a + (0 : Nat)) .ne = false by simp [Cmp.on], if_neg (by simp), ideal_done]
    refine ⟨t, ?_, by rw [h2]; congr 1; omega, rfl⟩
    congr 2
    funext i
    rw [if_neg (by omega), if_neg (by omega)]
  | n+1, k+1, t, tp, a, d, hk, h0, h1, h2, hm, hd, hov => by
    unfold swapRanges
    obtain ⟨x, hx⟩ := Option.isSome_iff_exists.1 (hm a (by omega) (by omega))
    obtain ⟨y, hy⟩ := Option.isSome_iff_exists.1 (hd d (by omega) (by omega))
    rw [ideal_cmp h0 h1, show Cmp.on a (a + ((n + 1 : Nat) : Int)) .ne = true by simp [Cmp.on]; omega, if_pos rfl, ideal_deref h0,
      ideal_deref (p := d), ideal_swap (p := a) (q := d) (a := x) (b := y), ideal_inc (p := a),
      ideal_inc (p := d)]
    any_goals first | exact h0 | exact h1 | exact h2 | exact hd3 | exact hb | exact hx | exact hy | exact hz | rfl
    obtain ⟨t', h3, h4, h7⟩ := swapRanges_ideal n k ((((t.putRef 0 a).putRef 1 d).putIt 0 (a + 1)).putIt 2 (d + 1))
      (fun i => if i = a then some y else if i = d then some x else tp i) (a + 1) (d + 1) (by omega) rfl
      (by rw [it_put, if_neg (by decide), it_put, if_neg (by decide), it_putRef, it_putRef, h1]; congr 1; omega) rfl
      (fun i h5 h6 => by rw [if_neg (by omega), if_neg (by omega)]; exact hm i (by omega) (by omega))
      (fun i h5 h6 => by rw [if_neg (by omega), if_neg (by omega)]; exact hd i (by omega) (by omega)) (by omega)
    refine ⟨t', h3.trans ?_, by rw [h4]; congr 1; omega, h7⟩
    congr 2
    funext i
    by_cases e : i = a
    · rw [if_neg (by omega), if_neg (by omega), if_pos e, if_pos (by omega), e, show d + (a - a) = d by omega, hy]
    · by_cases e1 : i = d
      · rw [if_neg (by omega), if_neg (by omega), if_neg e, if_pos e1, if_neg (by omega), if_pos (by omega), e1, show a + (d - d) = a by omega, hx]
      · by_cases e2 : a + 1 ≤ i ∧ i < a + 1 + n
        · rw [if_pos e2, if_neg (by omega), if_neg (by omega), if_pos (by omega)]
          congr 1; omega
        · rw [if_neg e2, if_neg (c := a ≤ i ∧ i < a + ((n + 1 : Nat) : Int)) (by omega)]
          by_cases e3 : d + 1 ≤ i ∧ i < d + 1 + n
          · rw [if_pos e3, if_neg (by omega), if_neg (by omega), if_pos (by omega)]
            congr 1; omega
          · rw [if_neg e3, if_neg e, if_neg e1, if_neg (by omega)]

theorem reverseLoop_ideal : ∀ (k : Nat) (t : Slots Int Int Int) (tp : Tape) (a b : Int), b - a + 1 < 2 * k → t.it 0 = some a → t.it 1 = some b →
    (∀ i, a ≤ i → i ≤ b → (tp i).isSome) → 0 < k →
    ∃ t', (reverseLoop k).ideal t tp = .ok ((some (), t'), fun i => if a ≤ i ∧ i ≤ b then tp (a + b - i) else tp i)
  | k+1, t, tp, a, b, hk, h0, h1, hm, _ => by
    unfold reverseLoop
    rw [ideal_cmp h0 h1]
    by_cases hab : a < b
    · rw [show Cmp.on a b .lt = true by simp [Cmp.on]; omega, if_pos rfl]
      obtain ⟨x, hx⟩ := Option.isSome_iff_exists.1 (hm a (by omega) (by omega))
      obtain ⟨y, hy⟩ := Option.isSome_iff_exists.1 (hm b (by omega) (by omega))
      rw [ideal_deref h0, ideal_deref (p := b), ideal_swap (p := a) (q := b) (a := x) (b := y), ideal_inc (p := a),
        ideal_dec (p := b)]
      any_goals first | exact h0 | exact h1 | exact h2 | exact hd3 | exact hb | exact hx | exact hy | exact hz | rfl
      have hmap : ∀ i, a + 1 ≤ i → i ≤ b - 1 → ((fun i => if i = a then some y else if i = b then some x else tp i) i).isSome := by
        intro i h5 h6
        dsimp only
        rw [if_neg (by omega), if_neg (by omega)]; exact hm i (by omega) (by omega)
      cases k with
      | zero => omega
      | succ k =>
        obtain ⟨t', h3⟩ := reverseLoop_ideal (k + 1) ((((t.putRef 0 a).putRef 1 b).putIt 0 (a + 1)).putIt 1 (b - 1))
          (fun i => if i = a then some y else if i = b then some x else tp i) (a + 1) (b - 1) (by omega) rfl rfl hmap (by omega)
        refine ⟨t', h3.trans ?_⟩
        congr 2
        funext i
        by_cases e : i = a
        · rw [if_neg (by omega), if_pos e, if_pos (by omega), e, show a + b - a = b by omega, hy]
        · by_cases e1 : i = b
          · rw [if_neg (by omega), if_neg e, if_pos e1, if_pos (by omega), e1, show a + b - b = a by omega, hx]
          · by_cases e2 : a + 1 ≤ i ∧ i ≤ b - 1
            · rw [if_pos e2, if_neg (by omega), if_neg (by omega), if_pos (by omega)]
              congr 1; omega
            · rw [if_neg e2, if_neg (c := a ≤ i ∧ i ≤ b) (by omega), if_neg e, if_neg e1]
    · rw [show Cmp.on a b .lt = false by simp [Cmp.on]; omega, if_neg (by simp), ideal_done]
      refine ⟨t, ?_⟩
      congr 2
      funext i
      by_cases e : a ≤ i ∧ i ≤ b
      · rw [if_pos e]; congr 1; omega
      · rw [if_neg e]

section
variable {α : Type} {t : Slots Int Int Int} {tp : Tape}
theorem ideal_add {d i : Nat} {p n : Int} {k : Client (Option α)} (hi : t.it i = some p) :
    (run (.addIt d i n) k).ideal t tp = k.ideal (t.putIt d (p + n)) tp := by
  simp only [Client.ideal, run, Client.run, IOp.run, useSlot, hi]; rfl
theorem ideal_sub {d i : Nat} {p n : Int} {k : Client (Option α)} (hi : t.it i = some p) :
    (run (.subIt d i n) k).ideal t tp = k.ideal (t.putIt d (p - n)) tp := by
  simp only [Client.ideal, run, Client.run, IOp.run, useSlot, hi]; rfl
theorem ideal_copy {d i : Nat} {p : Int} {k : Client (Option α)} (hi : t.it i = some p) :
    (run (.copyIt d i) k).ideal t tp = k.ideal (t.putIt d p) tp := by
  simp only [Client.ideal, run, Client.run, IOp.run, useSlot, hi]; rfl
end

/-- The tape after `j` of the swaps upwards: the block of `k` bits at `a` has moved up by `j` places, its bits cyclically. -/
def upTape (tp : Tape) (a k j : Int) : Tape := fun i =>
  if a ≤ i ∧ i < a + j then tp (i + k) else if a + j ≤ i ∧ i < a + j + k then tp (a + (i - a) % k) else tp i

theorem upTape_zero (tp : Tape) (a k : Int) : upTape tp a k 0 = tp := by
  funext i
  unfold upTape
  rw [if_neg (by omega)]
  by_cases h : a + 0 ≤ i ∧ i < a + 0 + k
  · rw [if_pos h, Int.emod_eq_of_lt (by omega) (by omega)]; congr 1; omega
  · rw [if_neg h]

theorem swapUp_ideal (next : Client (Option Unit)) (tp : Tape) (a k : Int) (hk : 0 < k) : ∀ (s : Nat) (j : Int) (t : Slots Int Int Int), 0 ≤ j →
    t.it 0 = some (a + j) → t.it 4 = some (a + j + k) → (∀ i, a ≤ i → i < a + j + k + s → (tp i).isSome) →
    ∃ t', (swapUp s next).ideal t (upTape tp a k j) = next.ideal t' (upTape tp a k (j + s)) ∧ t'.it 0 = some (a + j + s) ∧ t'.it 3 = t.it 3
  | 0, j, t, _, h0, h4, _ => by
    refine ⟨t, ?_, by rw [h0]; congr 1; omega, rfl⟩
    unfold swapUp
    rw [show j + ((0 : Nat) : Int) = j by omega]
  | s+1, j, t, hj, h0, h4, hm => by
    unfold swapUp
    have hmod : 0 ≤ j % k ∧ j % k < k := ⟨Int.emod_nonneg _ (by omega), Int.emod_lt_of_pos _ hk⟩
    obtain ⟨x, hx⟩ := Option.isSome_iff_exists.1 (hm (a + j % k) (by omega) (by omega))
    obtain ⟨y, hy⟩ := Option.isSome_iff_exists.1 (hm (a + j + k) (by omega) (by omega))
    have e1 : upTape tp a k j (a + j) = some x := by
      unfold upTape
      rw [if_neg (by omega), if_pos (by omega), ← hx]
      congr 2
      rw [show a + j - a = j by omega]
    have e2 : upTape tp a k j (a + j + k) = some y := by
      unfold upTape
      rw [if_neg (by omega), if_neg (by omega)]; exact hy
    rw [ideal_deref h0, ideal_deref (p := a + j + k), ideal_swap (p := a + j) (q := a + j + k) (a := x) (b := y), ideal_inc (p := a + j),
      ideal_inc (p := a + j + k)]
    any_goals first | exact h0 | exact h4 | exact e1 | exact e2 | rfl
    have e3 : (fun i => if i = a + j then some y else if i = a + j + k then some x else upTape tp a k j i) = upTape tp a k (j + 1) := by
      funext i
      unfold upTape
      by_cases c1 : i = a + j
      · rw [if_pos c1, if_pos (by omega), c1, hy]
      · rw [if_neg c1]
        by_cases c2 : i = a + j + k
        · rw [if_pos c2, if_neg (by omega), if_pos (by omega), ← hx, c2, show a + j + k - a = j + k by omega, Int.add_emod_right]
        · rw [if_neg c2]
          by_cases c3 : a ≤ i ∧ i < a + j
          · rw [if_pos c3, if_pos (by omega)]
          · rw [if_neg c3, if_neg (c := a ≤ i ∧ i < a + (j + 1)) (by omega)]
            by_cases c4 : a + j ≤ i ∧ i < a + j + k
            · rw [if_pos c4, if_pos (by omega)]
            · rw [if_neg c4, if_neg (by omega)]
    rw [e3]
    obtain ⟨t', g1, g2, g3⟩ := swapUp_ideal next tp a k hk s (j + 1) ((((t.putRef 0 (a + j)).putRef 1 (a + j + k)).putIt 0 (a + j + 1)).putIt 4 (a + j + k + 1))
      (by omega) (by show some (a + j + 1) = _; congr 1; omega) (by show some (a + j + k + 1) = _; congr 1; omega)
      (fun i h5 h6 => hm i h5 (by omega))
    refine ⟨t', g1.trans ?_, by rw [g2]; congr 1; omega, g3⟩
    rw [show j + 1 + (s : Int) = j + ((s + 1 : Nat) : Int) by omega]

/-- The tape after `j` of the swaps downwards: the block of `k` bits at `b` has moved down by `j` places, its bits cyclically. -/
def downTape (tp : Tape) (b k j : Int) : Tape := fun i =>
  if b - j + k ≤ i ∧ i < b + k then tp (i - k) else if b - j ≤ i ∧ i < b - j + k then tp (b + (i - b) % k) else tp i

theorem downTape_zero (tp : Tape) (b k : Int) : downTape tp b k 0 = tp := by
  funext i
  unfold downTape
  rw [if_neg (by omega)]
  by_cases h : b - 0 ≤ i ∧ i < b - 0 + k
  · rw [if_pos h, Int.emod_eq_of_lt (by omega) (by omega)]; congr 1; omega
  · rw [if_neg h]

theorem swapDown_ideal (next : Client (Option Unit)) (tp : Tape) (b k : Int) (hk : 0 < k) : ∀ (s : Nat) (j : Int) (t : Slots Int Int Int), 0 ≤ j →
    t.it 0 = some (b - j) → t.it 4 = some (b - j + k) → (∀ i, b - j - s ≤ i → i < b + k → (tp i).isSome) →
    ∃ t', (swapDown s next).ideal t (downTape tp b k j) = next.ideal t' (downTape tp b k (j + s)) ∧ t'.it 0 = some (b - j - s) ∧ t'.it 3 = t.it 3
  | 0, j, t, _, h0, h4, _ => by
    refine ⟨t, ?_, by rw [h0]; congr 1; omega, rfl⟩
    unfold swapDown
    rw [show j + ((0 : Nat) : Int) = j by omega]
  | s+1, j, t, hj, h0, h4, hm => by
    unfold swapDown
    have hmod : 0 ≤ (-j - 1) % k ∧ (-j - 1) % k < k := ⟨Int.emod_nonneg _ (by omega), Int.emod_lt_of_pos _ hk⟩
    obtain ⟨x, hx⟩ := Option.isSome_iff_exists.1 (hm (b - j - 1) (by omega) (by omega))
    obtain ⟨y, hy⟩ := Option.isSome_iff_exists.1 (hm (b + (-j - 1) % k) (by omega) (by omega))
    have e1 : downTape tp b k j (b - j - 1) = some x := by
      unfold downTape
      rw [if_neg (by omega), if_neg (by omega)]; exact hx
    have e2 : downTape tp b k j (b - j + k - 1) = some y := by
      unfold downTape
      rw [if_neg (by omega), if_pos (by omega), ← hy]
      congr 2
      rw [show b - j + k - 1 - b = -j - 1 + k by omega, Int.add_emod_right]
    rw [ideal_dec h0, ideal_dec (p := b - j + k), ideal_deref (p := b - j - 1), ideal_deref (p := b - j + k - 1),
      ideal_swap (p := b - j - 1) (q := b - j + k - 1) (a := x) (b := y)]
    any_goals first | exact h0 | exact h4 | exact e1 | exact e2 | rfl
    have e3 : (fun i => if i = b - j - 1 then some y else if i = b - j + k - 1 then some x else downTape tp b k j i) = downTape tp b k (j + 1) := by
      funext i
      unfold downTape
      by_cases c2 : i = b - j - 1
      · rw [if_pos c2, if_neg (by omega), if_pos (by omega), ← hy, c2, show b - j - 1 - b = -j - 1 by omega]
      · rw [if_neg c2]
        by_cases c1 : i = b - j + k - 1
        · rw [if_pos c1, if_pos (by omega), c1, ← hx]; congr 1; omega
        · rw [if_neg c1]
          by_cases c3 : b - j + k ≤ i ∧ i < b + k
          · rw [if_pos c3, if_pos (by omega)]
          · rw [if_neg c3, if_neg (c := b - (j + 1) + k ≤ i ∧ i < b + k) (by omega)]
            by_cases c4 : b - j ≤ i ∧ i < b - j + k
            · rw [if_pos c4, if_pos (by omega)]
            · rw [if_neg c4, if_neg (by omega)]
    rw [e3]
    obtain ⟨t', g1, g2, g3⟩ := swapDown_ideal next tp b k hk s (j + 1) ((((t.putIt 0 (b - j - 1)).putIt 4 (b - j + k - 1)).putRef 0 (b - j - 1)).putRef 1 (b - j + k - 1))
      (by omega) (by show some (b - j - 1) = _; congr 1; omega) (by show some (b - j + k - 1) = _; congr 1; omega)
      (fun i h5 h6 => hm i (by omega) h6)
    refine ⟨t', g1.trans ?_, by rw [g2]; congr 1; omega, g3⟩
    rw [show j + 1 + (s : Int) = j + ((s + 1 : Nat) : Int) by omega]

/-- The tape with the `n` bits at `a` rotated by `k`. -/
def rotTape (tp : Tape) (a n k : Int) : Tape := fun i =>
  if a ≤ i ∧ i < a + (n - k) then tp (i + k) else if a + (n - k) ≤ i ∧ i < a + n then tp (i - (n - k)) else tp i

theorem emod_shift {x k q : Int} (h0 : 0 ≤ x) (h1 : x < k) : (x + k * q) % k = x := by
  rw [Int.add_mul_emod_self_left, Int.emod_eq_of_lt h0 h1]

theorem rotateLoop_ideal : ∀ (rounds n k : Nat) (t : Slots Int Int Int) (tp : Tape) (a : Int), n ≤ rounds → 0 < k → k < n → t.it 0 = some a →
    (∀ i, a ≤ i → i < a + n → (tp i).isSome) →
    ∃ t', (rotateLoop rounds n k).ideal t tp = .ok ((some (), t'), rotTape tp a n k) ∧ t'.it 3 = t.it 3
  | 0, n, k, _, _, _, hr, h1, h2, _, _ => by omega
  | rounds+1, n, k, t, tp, a, hr, h1, h2, h0, hm => by
    unfold rotateLoop
    by_cases hc : k < n - k
    · rw [if_pos hc, ideal_add h0]
      have hq : (n : Int) = k * ((n / k : Nat) : Int) + ((n % k : Nat) : Int) := by exact_mod_cast (Nat.div_add_mod n k).symm
      have hlt := Nat.mod_lt n h1
      obtain ⟨t1, g1, g2, g3⟩ := swapUp_ideal (if n % k = 0 then .done (some ()) else rotateLoop rounds k (k - n % k)) tp a k (by omega) (n - k) 0
        (t.putIt 4 (a + k)) (by omega) (by rw [it_put, if_neg (by decide), h0]; congr 1; omega) (by show some (a + (k : Int)) = _; congr 1; omega)
        (fun i h5 h6 => hm i h5 (by omega))
      rw [upTape_zero] at g1
      rw [g1]
      have g3' : t1.it 3 = t.it 3 := g3
      have hsame : ∀ i, ¬ (a + ((n - k : Nat) : Int) ≤ i ∧ i < a + n) → upTape tp a k (0 + ((n - k : Nat) : Int)) i = rotTape tp a n k i := by
        intro i hi
        unfold upTape rotTape
        by_cases c : a ≤ i ∧ i < a + ((n : Int) - k)
        · rw [if_pos c, if_pos (by omega)]
        · rw [if_neg c, if_neg (by omega), if_neg (by omega), if_neg (by omega)]
      have hwin : ∀ i, a + ((n - k : Nat) : Int) ≤ i → i < a + n → upTape tp a k (0 + ((n - k : Nat) : Int)) i = tp (a + (i - a) % k) := by
        intro i h5 h6
        unfold upTape
        rw [if_neg (by omega), if_pos (by omega)]
      by_cases hz : n % k = 0
      · rw [if_pos hz, ideal_done]
        refine ⟨t1, ?_, g3'⟩
        congr 2
        funext i
        by_cases c : a + ((n - k : Nat) : Int) ≤ i ∧ i < a + n
        · rw [hwin i c.1 c.2]
          unfold rotTape
          rw [if_neg (by omega), if_pos (by omega)]
          have e : i - a = (i - a - (n - k)) + k * (((n / k : Nat) : Int) - 1) := by rw [Int.mul_sub]; omega
          rw [e, emod_shift (by omega) (by omega)]
          congr 1; omega
        · exact hsame i c
      · rw [if_neg hz]
        obtain ⟨t', f1, f2⟩ := rotateLoop_ideal rounds k (k - n % k) t1 (upTape tp a k (0 + ((n - k : Nat) : Int))) (a + ((n - k : Nat) : Int)) (by omega) (by omega)
          (by omega) (by rw [g2]; congr 1; omega) (fun i h5 h6 => by
            rw [hwin i h5 (by omega)]
            have : 0 ≤ (i - a) % (k : Int) ∧ (i - a) % (k : Int) < k := ⟨Int.emod_nonneg _ (by omega), Int.emod_lt_of_pos _ (by omega)⟩
            exact hm _ (by omega) (by omega))
        refine ⟨t', f1.trans ?_, f2.trans g3'⟩
        congr 2
        funext i
        by_cases c : a + ((n - k : Nat) : Int) ≤ i ∧ i < a + n
        · unfold rotTape
          rw [if_neg (c := a ≤ i ∧ i < a + ((n : Int) - k)) (by omega), if_pos (c := a + ((n : Int) - k) ≤ i ∧ i < a + n) (by omega)]
          by_cases c2 : i < a + ((n - k : Nat) : Int) + ((n % k : Nat) : Int)
          · rw [if_pos (by omega), hwin _ (by omega) (by omega)]
            have e : i + ((k - n % k : Nat) : Int) - a = (i - a - (n - k)) + k * ((n / k : Nat) : Int) := by omega
            rw [e, emod_shift (by omega) (by omega)]
            congr 1; omega
          · rw [if_neg (by omega), if_pos (by omega), hwin _ (by omega) (by omega)]
            have e : i - ((k : Int) - ((k - n % k : Nat) : Int)) - a = (i - a - (n - k)) + k * (((n / k : Nat) : Int) - 1) := by rw [Int.mul_sub]; omega
            rw [e, emod_shift (by omega) (by omega)]
            congr 1; omega
        · have : rotTape (upTape tp a k (0 + ((n - k : Nat) : Int))) (a + ((n - k : Nat) : Int)) k ((k - n % k : Nat) : Int) i =
              upTape tp a k (0 + ((n - k : Nat) : Int)) i := by
            conv_lhs => unfold rotTape
            rw [if_neg (by omega), if_neg (by omega)]
          rw [this]
          exact hsame i c
    · rw [if_neg hc, ideal_add h0, ideal_sub (p := a + n)]
      on_goal 2 => rfl
      obtain ⟨d, hd⟩ : ∃ d, d = n - k := ⟨_, rfl⟩
      rw [← hd]
      have hq : (n : Int) = d * ((n / d : Nat) : Int) + ((n % d : Nat) : Int) := by exact_mod_cast (Nat.div_add_mod n d).symm
      have hlt := Nat.mod_lt n (show d > 0 by omega)
      obtain ⟨t1, g1, g2, g3⟩ := swapDown_ideal (if n % d = 0 then .done (some ()) else rotateLoop rounds d (n % d)) tp (a + k) d (by omega) (n - d) 0
        ((t.putIt 4 (a + n)).putIt 0 (a + n - d)) (by omega) (by show some (a + (n : Int) - d) = _; congr 1; omega)
        (by show some (a + (n : Int)) = _; congr 1; omega) (fun i h5 h6 => hm i (by omega) (by omega))
      rw [downTape_zero] at g1
      rw [g1]
      have g3' : t1.it 3 = t.it 3 := g3
      have hsame : ∀ i, ¬ (a ≤ i ∧ i < a + d) → downTape tp (a + k) d (0 + ((n - d : Nat) : Int)) i = rotTape tp a n k i := by
        intro i hi
        unfold downTape rotTape
        rw [if_neg (c := a ≤ i ∧ i < a + ((n : Int) - k)) (by omega)]
        by_cases c : a + ((n : Int) - k) ≤ i ∧ i < a + n
        · rw [if_pos c, if_pos (by omega)]
          congr 1; omega
        · rw [if_neg c, if_neg (by omega), if_neg (by omega)]
      have hwin : ∀ i, a ≤ i → i < a + d → downTape tp (a + k) d (0 + ((n - d : Nat) : Int)) i = tp (a + k + (i - (a + k)) % d) := by
        intro i h5 h6
        unfold downTape
        rw [if_neg (by omega), if_pos (by omega)]
      by_cases hz : n % d = 0
      · rw [if_pos hz, ideal_done]
        refine ⟨t1, ?_, g3'⟩
        congr 2
        funext i
        by_cases c : a ≤ i ∧ i < a + d
        · rw [hwin i c.1 c.2]
          unfold rotTape
          rw [if_pos (by omega)]
          have e : i - (a + k) = (i - a) + d * (1 - ((n / d : Nat) : Int)) := by rw [Int.mul_sub]; omega
          rw [e, emod_shift (by omega) (by omega)]
          congr 1; omega
        · exact hsame i c
      · rw [if_neg hz]
        obtain ⟨t', f1, f2⟩ := rotateLoop_ideal rounds d (n % d) t1 (downTape tp (a + k) d (0 + ((n - d : Nat) : Int))) a (by omega) (by omega)
          (by omega) (by rw [g2]; congr 1; omega) (fun i h5 h6 => by
            rw [hwin i h5 (by omega)]
            have : 0 ≤ (i - (a + k)) % (d : Int) ∧ (i - (a + k)) % (d : Int) < d := ⟨Int.emod_nonneg _ (by omega), Int.emod_lt_of_pos _ (by omega)⟩
            exact hm _ (by omega) (by omega))
        refine ⟨t', f1.trans ?_, f2.trans g3'⟩
        congr 2
        funext i
        by_cases c : a ≤ i ∧ i < a + d
        · unfold rotTape
          rw [if_pos (c := a ≤ i ∧ i < a + ((n : Int) - k)) (by omega)]
          by_cases c2 : i < a + ((d : Int) - ((n % d : Nat) : Int))
          · rw [if_pos (by omega), hwin _ (by omega) (by omega)]
            have e : i + ((n % d : Nat) : Int) - (a + k) = (i - a) + d * (1 - ((n / d : Nat) : Int)) := by rw [Int.mul_sub]; omega
            rw [e, emod_shift (by omega) (by omega)]
            congr 1; omega
          · rw [if_neg (by omega), if_pos (by omega), hwin _ (by omega) (by omega)]
            have e : i - ((d : Int) - ((n % d : Nat) : Int)) - (a + k) = (i - a) + d * (- ((n / d : Nat) : Int)) := by rw [Int.mul_neg]; omega
            rw [e, emod_shift (by omega) (by omega)]
            congr 1; omega
        · have : rotTape (downTape tp (a + k) d (0 + ((n - d : Nat) : Int))) a d ((n % d : Nat) : Int) i =
              downTape tp (a + k) d (0 + ((n - d : Nat) : Int)) i := by
            conv_lhs => unfold rotTape
            rw [if_neg (by omega), if_neg (by omega)]
          rw [this]
          exact hsame i c

theorem rotate_ideal (rounds n k : Nat) (t : Slots Int Int Int) (tp : Tape) (a : Int) (hr : n ≤ rounds) (hk : k ≤ n) (h0 : t.it 0 = some a)
    (h1 : t.it 1 = some (a + n)) (h2 : t.it 2 = some (a + k)) (hm : ∀ i, a ≤ i → i < a + n → (tp i).isSome) :
    ∃ t', (rotate rounds).ideal t tp = .ok ((some (), t'), rotTape tp a n k) ∧ t'.it 3 = some (a + ((n : Int) - k)) := by
  unfold rotate
  rw [ideal_cmp h0 h2]
  by_cases c1 : k = 0
  · rw [show Cmp.on a (a + k) .eq = true by simp [Cmp.on, c1], if_pos rfl, ideal_copy h1, ideal_done]
    refine ⟨t.putIt 3 (a + n), ?_, by show some (a + (n : Int)) = _; congr 1; omega⟩
    congr 2
    funext i
    unfold rotTape
    by_cases e : a ≤ i ∧ i < a + ((n : Int) - k)
    · rw [if_pos e]; congr 1; omega
    · rw [if_neg e, if_neg (by omega)]
  rw [show Cmp.on a (a + k) .eq = false by simp [Cmp.on, c1], if_neg (by simp), ideal_cmp h1 h2]
  by_cases c2 : n = k
  · rw [show Cmp.on (a + n) (a + k) .eq = true by simp [Cmp.on, c2], if_pos rfl, ideal_copy h0, ideal_done]
    refine ⟨t.putIt 3 a, ?_, by show some a = _; congr 1; omega⟩
    congr 2
    funext i
    unfold rotTape
    rw [if_neg (by omega)]
    by_cases e : a + ((n : Int) - k) ≤ i ∧ i < a + n
    · rw [if_pos e]; congr 1; omega
    · rw [if_neg e]
  rw [show Cmp.on (a + n) (a + k) .eq = false by simp [Cmp.on]; omega, if_neg (by simp), ideal_diff h1 h0, ideal_diff h2 h0]
  by_cases c3 : a + (k : Int) - a = a + n - a - (a + k - a)
  · rw [if_pos c3, ideal_copy h2, ideal_copy (p := a + k)]
    on_goal 2 => exact h2
    obtain ⟨t', g1, -, g2⟩ := swapRanges_ideal k rounds ((t.putIt 3 (a + k)).putIt 1 (a + k)) tp a (a + k) (by omega) h0 rfl h2
      (fun i h5 h6 => hm i h5 (by omega)) (fun i h5 h6 => hm i (by omega) (by omega)) (by omega)
    refine ⟨t', g1.trans ?_, ?_⟩
    · congr 2
      funext i
      unfold rotTape
      by_cases e : a ≤ i ∧ i < a + k
      · rw [if_pos e, if_pos (by omega)]; congr 1; omega
      · rw [if_neg e, if_neg (c := a ≤ i ∧ i < a + ((n : Int) - k)) (by omega)]
        by_cases e2 : a + (k : Int) ≤ i ∧ i < a + k + k
        · rw [if_pos e2, if_pos (by omega)]; congr 1; omega
        · rw [if_neg e2, if_neg (by omega)]
    · rw [g2]
      show some (a + (k : Int)) = _
      congr 1; omega
  · rw [if_neg c3, ideal_diff h1 h2, ideal_add h0]
    obtain ⟨t', g1, g2⟩ := rotateLoop_ideal rounds n k (t.putIt 3 (a + (a + n - (a + k)))) tp a hr (by omega) (by omega) h0 hm
    refine ⟨t', ?_, ?_⟩
    · rw [show (a + (n : Int) - a).toNat = n by omega, show (a + (k : Int) - a).toNat = k by omega]
      exact g1
    · rw [g2]
      show some (a + (a + (n : Int) - (a + k))) = _
      congr 1; omega

end Std
end BitLib
