import Verif.Model.OpCalls
import Verif.SpecOpCalls
import Verif.Lemmas.Map
/- `transform` with an operation that is called: the proofs. -/
namespace BitLib.OpCalls
open BitLib
variable {w : Nat} {γ τ σ ε α β : Type}

/-- `x` ends without undefined behaviour, and how. -/
def owp (x : CallM w τ σ ε α) (s : τ × σ) (m : Mem w) (Q : Except ε α → τ × σ → Mem w → Prop) : Prop :=
  ∃ r s' m', x.run s m = .ok ((r, s'), m') ∧ Q r s' m'

theorem owp_pure {a : α} {s : τ × σ} {m : Mem w} {Q : Except ε α → τ × σ → Mem w → Prop} (h : Q (.ok a) s m) :
    owp (pure a : CallM w τ σ ε α) s m Q := ⟨_, _, _, rfl, h⟩

theorem owp_mono {x : CallM w τ σ ε α} {s : τ × σ} {m : Mem w} {Q R : Except ε α → τ × σ → Mem w → Prop}
    (h : owp x s m Q) (hQ : ∀ r s' m', Q r s' m' → R r s' m') : owp x s m R := by
  obtain ⟨r, s', m', h1, h2⟩ := h
  exact ⟨r, s', m', h1, hQ _ _ _ h2⟩

theorem owp_bind {x : CallM w τ σ ε α} {f : α → CallM w τ σ ε β} {s : τ × σ} {m : Mem w} {Q : Except ε β → τ × σ → Mem w → Prop}
    (h : owp x s m fun r s' m' => match r with
      | .ok a => owp (f a) s' m' Q
      | .error e => Q (.error e) s' m') : owp (x >>= f) s m Q := by
  obtain ⟨r, s', m', h1, h2⟩ := h
  have key : (x >>= f).run s m = (Except.bind (x.run s m) fun p => ExceptT.bindCont f p.1.1 p.1.2 p.2) := rfl
  cases r with
  | error e =>
    refine ⟨.error e, s', m', ?_, h2⟩
    rw [key, h1]; rfl
  | ok a =>
    obtain ⟨r2, s2, m2, h3, h4⟩ := h2
    refine ⟨r2, s2, m2, ?_, h4⟩
    rw [key, h1]; exact h3

theorem owp_words {x : M w α} {s : τ × σ} {m : Mem w} {Q : Except ε α → τ × σ → Mem w → Prop}
    (h : wp x m fun a m' => Q (.ok a) s m') : owp (words x) s m Q := by
  obtain ⟨a, m', h1, h2⟩ := h
  refine ⟨.ok a, s, m', ?_, h2⟩
  show (match x m with | .ok (a, m') => _ | .error u => _) = _
  rw [h1]

theorem owp_call {op : Op w γ τ σ ε} {x : γ} {s : τ × σ} {m : Mem w} {Q : Except ε (BitVec w) → τ × σ → Mem w → Prop}
    (h : Q (op x s).1 (op x s).2 m) : owp (call op x) s m Q := ⟨_, _, _, rfl, h⟩

theorem owp_onCopy {x : CallM w τ σ ε α} {s : τ × σ} {m : Mem w} {Q : Except ε α → τ × σ → Mem w → Prop}
    (h : owp x s m fun r s' m' => Q r (s.1, s'.2) m') : owp (onCopy x) s m Q := by
  obtain ⟨r, s', m', h1, h2⟩ := h
  refine ⟨r, (s.1, s'.2), m', ?_, h2⟩
  show (match x.run s m with | .ok ((r, s'), m') => _ | .error u => _) = _
  rw [h1]

/-! ### words from bits -/

theorem wordOf_get : ∀ (w : Nat) (f : Nat → Bool) (i : Nat), i < w → (wordOf w f).getLsbD i = f i
  | 0, _, _, h => by omega
  | w+1, f, i, h => by
    unfold wordOf
    rw [BitVec.getLsbD_cons]
    split
    · rename_i e; rw [e]
    · exact wordOf_get w f i (by omega)

theorem eq_wordOf {x : BitVec w} {f : Nat → Bool} (h : ∀ i, i < w → x.getLsbD i = f i) : x = wordOf w f := by
  apply BitVec.eq_of_getLsbD_eq
  intro i hi
  rw [h i hi, wordOf_get _ _ _ hi]

theorem addr_emod {it : BitIter w} (hv : it.Valid) : (it.addr % (w : Int)).toNat = it.pos := by
  have : it.pos < w := hv
  unfold BitIter.addr
  rw [Int.add_comm, Int.add_mul_emod_self_right, Int.emod_eq_of_lt (by omega) (by omega)]
  omega

/-- `get_word`, with all the bits of the result. -/
theorem wp_getWord' (S : ShiftSem w) {it : BitIter w} {len : Nat} {m : Mem w}
    {Q : BitVec w → Mem w → Prop} (hv : it.Valid) (hlen : len ≤ w) (h0 : 0 < len)
    (hm : Mapped m it.addr (it.addr + len))
    (hQ : ∀ x : BitVec w, (∀ i : Nat, i < w → x.getLsbD i =
      (decide (i < max len (w - it.pos)) && (bitAt m (it.addr + i)).getD false)) → Q x m) :
    wp (getWord S it len) m Q := by
  unfold BitIter.Valid at hv
  have hw : 0 < w := by omega
  unfold getWord
  unfold BitIter.addr at *
  rw [wp_bind, wp_assert]
  refine ⟨hlen, ?_⟩
  rw [wp_bind]
  refine wp_load_bits hw (it.base * w + it.pos) (by omega) (by omega) (hm _ (by omega) (by omega)) ?_
  intro x hx
  have hx' : ∀ i : Nat, i < w - it.pos → bitAt m (it.base * w + it.pos + i) = some (x.getLsbD (it.pos + i)) := by
    intro i hi
    rw [← hx (it.pos + i) (by omega)]
    congr 1; push_cast; omega
  rw [wp_bind, wp_shr S hv]
  split
  · rename_i hle
    rw [wp_pure]
    apply hQ
    intro i hi
    rw [BitVec.getLsbD_ushiftRight]
    by_cases h : i < w - it.pos
    · rw [hx' i h]; simp [show i < max len (w - it.pos) by omega]
    · rw [BitVec.getLsbD_of_ge _ _ (by omega)]; simp [show ¬ i < max len (w - it.pos) by omega]
  · rename_i hle
    rw [wp_bind]
    refine wp_load_bits hw (it.base * w + it.pos + (w - it.pos)) ?_ ?_
      (hm _ (by omega) (by omega)) ?_
    · rw [Int.add_mul]; omega
    · rw [Int.add_mul]; omega
    intro y hy
    rw [wp_bind, wp_shl S (by omega)]
    refine wp_bitblend4 S (by omega) (lt_pw S (by omega)) ?_
    intro r hr
    apply hQ
    intro i hi
    rw [hr i (by omega)]
    split
    · have := hy (i - (w - it.pos)) (by omega)
      rw [BitVec.getLsbD_shiftLeft]
      rw [Int.add_mul] at this
      simp only [show i < w by omega, show ¬ i < w - it.pos by omega, decide_true, decide_false,
        Bool.not_false, Bool.true_and]
      rw [show it.base * (w : Int) + it.pos + i = it.base * w + 1 * w + (i - (w - it.pos) : Nat) by omega, this]
      simp [show i < max len (w - it.pos) by omega]
    · rename_i hn
      rw [BitVec.getLsbD_ushiftRight]
      by_cases h : i < w - it.pos
      · rw [hx' i h]; simp [show i < max len (w - it.pos) by omega]
      · rw [BitVec.getLsbD_of_ge _ _ (by omega)]; simp [show ¬ i < max len (w - it.pos) by omega]

/-- What the code hands to the operation is what it is to see. -/
theorem wp_seen (S : ShiftSem w) {it : BitIter w} {l : Nat} {d : Int} {m : Mem w} {Q : BitVec w → Mem w → Prop}
    (hv : it.Valid) (hl : l ≤ w) (h0 : 0 < l) (hm : Mapped m it.addr (it.addr + l)) (hd : d % (w : Int) = 0)
    (hQ : Q (seen w (bitAt m) it.addr d l) m) : wp (getWord S it l) m Q := by
  refine wp_getWord' S hv hl h0 hm ?_
  intro x hx
  have : x = seen w (bitAt m) it.addr d l := by
    apply eq_wordOf
    intro i hi
    rw [hx i hi, addr_emod hv, hd]
    simp
  rw [this]; exact hQ

theorem wp_seen_shl (S : ShiftSem w) {it dst : BitIter w} {l : Nat} {m : Mem w} {Q : BitVec w → Mem w → Prop}
    (hv : it.Valid) (hl : l ≤ w) (h0 : 0 < l) (hm : Mapped m it.addr (it.addr + l)) (hd : dst.Valid)
    (hQ : Q (seen w (bitAt m) it.addr dst.addr l) m) :
    wp (getWord S it l >>= fun x => lift (S.shl x dst.pos)) m Q := by
  rw [wp_bind]
  refine wp_getWord' S hv hl h0 hm ?_
  intro x hx
  rw [wp_shl S hd]
  have : x <<< dst.pos = seen w (bitAt m) it.addr dst.addr l := by
    apply eq_wordOf
    intro i hi
    rw [addr_emod hv, addr_emod hd, BitVec.getLsbD_shiftLeft]
    by_cases h : dst.pos ≤ i
    · rw [hx (i - dst.pos) (by omega)]; simp [hi, h, show ¬ i < dst.pos by omega]
    · simp [h, show i < dst.pos by omega]
  rw [this]; exact hQ

/-- A word read by `std::transform`. -/
theorem wp_seen_load (hw : 0 < w) {a d : Int} {m : Mem w} {Q : BitVec w → Mem w → Prop}
    (hm : Mapped m (a * w) (a * w + w)) (hd : d % (w : Int) = 0)
    (hQ : Q (seen w (bitAt m) (a * w) d w) m) : wp (load a) m Q := by
  refine wp_load_bits hw (a * w) (by omega) (by omega) (hm _ (by omega) (by omega)) ?_
  intro x hx
  have : x = seen w (bitAt m) (a * w) d w := by
    apply eq_wordOf
    intro i hi
    rw [hd]
    simp [hx i hi, hi]
  rw [this]; exact hQ

/-! ### one piece -/

/-- The bits after a piece. -/
def put (b : Int → Option Bool) (d : Int) (l : Nat) (y : BitVec w) : Int → Option Bool :=
  fun a => if d ≤ a ∧ a < d + l then some (y.getLsbD (a % w).toNat) else b a

theorem put_of_wrote {m m' : Mem w} {it : Int} {p l : Nat} {y : BitVec w} (h : p + l ≤ w)
    (hw' : Wrote m m' (it * w + p) (it * w + p + l) fun i => some (y.getLsbD (i - it * (w : Int)).toNat)) :
    bitAt m' = put (bitAt m) (it * w + p) l y := by
  funext i
  rw [hw' i]
  unfold put
  split
  · rename_i hc
    have : i % (w : Int) = i - it * w := by
      have e : i = (i - it * w) + it * w := by omega
      rw [e, Int.add_mul_emod_self_right, Int.emod_eq_of_lt (by omega) (by omega)]
      omega
    rw [this]
  · rfl

theorem put_mapped {m m' : Mem w} {d : Int} {l : Nat} {y : BitVec w} {a b : Int} (h : bitAt m' = put (bitAt m) d l y)
    (hm : Mapped m a b) : Mapped m' a b := by
  intro i h1 h2
  rw [h]
  unfold put
  split
  · rfl
  · exact hm i h1 h2

/-- The outcome `o` of the calls is how the program ended. -/
def Is (o : Out τ σ ε) (r : Except ε α) (s : τ × σ) (m : Mem w) : Prop :=
  (match r with | .ok _ => none | .error e => some e) = o.thrown ∧ s = (o.own, o.shared) ∧ bitAt m = o.bits

/-- Read, call, write: one piece, and then what follows. -/
theorem owp_step {op : Op w γ τ σ ε} {arg : (Int → Option Bool) → Int → Nat → γ} {d k : Int} {l : Nat} {ls : List Nat} {R : M w γ}
    {W : BitVec w → M w Unit} {rest : CallM w τ σ ε α} {t : τ} {s : σ} {m : Mem w} {Q : Except ε α → τ × σ → Mem w → Prop}
    (hR : ∀ P : γ → Mem w → Prop, P (arg (bitAt m) k l) m → wp R m P)
    (hW : ∀ y, ∀ P : Unit → Mem w → Prop, (∀ m', bitAt m' = put (bitAt m) (d + k) l y → P () m') → wp (W y) m P)
    (herr : ∀ e t' s', runPieces op arg d (l :: ls) k t s (bitAt m) = ⟨some e, t', s', bitAt m⟩ → Q (.error e) (t', s') m)
    (hok : ∀ t' s' m' (y : BitVec w), bitAt m' = put (bitAt m) (d + k) l y →
      runPieces op arg d (l :: ls) k t s (bitAt m) = runPieces op arg d ls (k + l) t' s' (bitAt m') → owp rest (t', s') m' Q) :
    owp (words R >>= fun x => call op x >>= fun y => words (W y) >>= fun _ => rest) (t, s) m Q := by
  apply owp_bind
  apply owp_words
  apply hR
  show owp _ _ _ _
  apply owp_bind
  apply owp_call
  rcases ho : op (arg (bitAt m) k l) (t, s) with ⟨r, t', s'⟩
  cases r with
  | error e =>
    show Q _ _ _
    refine herr e t' s' ?_
    simp only [runPieces]
    rw [ho]
  | ok y =>
    show owp _ _ _ _
    apply owp_bind
    apply owp_words
    apply hW
    intro m' hm'
    show owp _ _ _ _
    refine hok t' s' m' y hm' ?_
    rw [hm']
    simp only [runPieces]
    rw [ho]
    rfl

/-! ### sequences of pieces -/

theorem runPieces_append {op : Op w γ τ σ ε} {arg : (Int → Option Bool) → Int → Nat → γ} {d : Int} (l2 : List Nat) :
    ∀ (l1 : List Nat) (k : Int) (t : τ) (s : σ) (b : Int → Option Bool),
      runPieces op arg d (l1 ++ l2) k t s b =
        (runPieces op arg d l1 k t s b).andThen fun t' s' b' => runPieces op arg d l2 (k + (l1.sum : Nat)) t' s' b' := by
  intro l1
  induction l1 with
  | nil => intro k t s b; simp [runPieces, Out.andThen]
  | cons l ls ih =>
    intro k t s b
    rw [List.cons_append]
    simp only [runPieces]
    rcases op (arg b k l) (t, s) with ⟨r, t', s'⟩
    cases r with
    | error e => rfl
    | ok y =>
      simp only []
      rw [ih]
      simp only [List.sum_cons, Nat.cast_add, Int.add_assoc]

theorem runPieces_mapped {op : Op w γ τ σ ε} {arg : (Int → Option Bool) → Int → Nat → γ} {d : Int} {i : Int} :
    ∀ (ls : List Nat) (k : Int) (t : τ) (s : σ) (b : Int → Option Bool), (b i).isSome →
      ((runPieces op arg d ls k t s b).bits i).isSome := by
  intro ls
  induction ls with
  | nil => intro k t s b h; exact h
  | cons l ls ih =>
    intro k t s b h
    simp only [runPieces]
    rcases op (arg b k l) (t, s) with ⟨r, t', s'⟩
    cases r with
    | error e => exact h
    | ok y =>
      simp only []
      apply ih
      split
      · rfl
      · exact h

/-- How a program ended, and what it returned if it did. -/
def Post (o : Out τ σ ε) (P : α → Prop) (r : Except ε α) (s : τ × σ) (m : Mem w) : Prop :=
  Is o r s m ∧ ∀ a, r = .ok a → P a

theorem owp_andThen {x : CallM w τ σ ε α} {f : α → CallM w τ σ ε β} {s : τ × σ} {m : Mem w} {o : Out τ σ ε}
    {k : τ → σ → (Int → Option Bool) → Out τ σ ε} {P : α → Prop} {P' : β → Prop} (h1 : owp x s m (Post o P))
    (h2 : ∀ a m', P a → o.thrown = none → bitAt m' = o.bits →
      owp (f a) (o.own, o.shared) m' (Post (k o.own o.shared (bitAt m')) P')) :
    owp (x >>= f) s m (Post (o.andThen k) P') := by
  apply owp_bind
  refine owp_mono h1 ?_
  rintro r s' m' ⟨⟨e1, e2, e3⟩, hP⟩
  cases r with
  | error e =>
    have : o.andThen k = o := by unfold Out.andThen; rw [← e1]
    show Post _ _ _ _ _
    rw [this]
    exact ⟨⟨e1, e2, e3⟩, fun a h => by cases h⟩
  | ok a =>
    have : o.andThen k = k o.own o.shared (bitAt m') := by unfold Out.andThen; rw [← e1, e3]
    show owp _ _ _ _
    rw [this, e2]
    exact h2 a m' (hP a rfl) e1.symm e3

theorem owp_done {x : CallM w τ σ ε α} {s : τ × σ} {m : Mem w} {o : Out τ σ ε} {P : α → Prop} {b : β}
    (h1 : owp x s m (Post o P)) : owp (x >>= fun _ => pure b) s m (Post o (fun a => a = b)) := by
  apply owp_bind
  refine owp_mono h1 ?_
  rintro r s' m' ⟨h, _⟩
  cases r with
  | error e => exact ⟨h, fun a h => by cases h⟩
  | ok a =>
    apply owp_pure
    exact ⟨h, fun a h => by cases h; rfl⟩

theorem owp_copy {x : CallM w τ σ ε α} {t : τ} {s : σ} {m : Mem w} {o : Out τ σ ε} {P : α → Prop}
    (h : owp x (t, s) m (Post o P)) : owp (onCopy x) (t, s) m (Post { o with own := t } P) := by
  apply owp_onCopy
  refine owp_mono h ?_
  rintro r s' m' ⟨⟨e1, e2, e3⟩, hP⟩
  refine ⟨⟨e1, ?_, e3⟩, hP⟩
  rw [e2]

theorem piece_zero : piece 0 = [] := rfl
theorem piece_pos {l : Nat} (h : 0 < l) : piece l = [l] := by unfold piece; rw [if_neg (by omega)]

theorem headLen_addr {d : BitIter w} (hd : d.Valid) (n : Nat) :
    headLen w d.addr n = if d.pos = 0 then 0 else min n (w - d.pos) := by
  have h : d.pos < w := hd
  have e := addr_emod hd
  have : 0 ≤ d.addr % (w : Int) := Int.emod_nonneg _ (by omega)
  unfold headLen
  rw [e]
  by_cases h0 : d.pos = 0
  · rw [if_pos h0, if_pos (by omega)]
  · rw [if_neg h0, if_neg (by omega)]

theorem headLen_le (d : Int) (n : Nat) : headLen w d n ≤ n := by
  unfold headLen; split <;> omega

/-- `expected` after the first piece, with what the object holds. -/
def after (op : Op w γ τ σ ε) (arg : (Int → Option Bool) → Int → Nat → γ) (block : Bool) (d : Int) (n : Nat) (t1 : τ) (s1 : σ)
    (b1 : Int → Option Bool) : Out τ σ ε :=
  let h := headLen w d n
  let r := n - h
  if block then
    ({ runPieces op arg d (List.replicate (r / w) w) h t1 s1 b1 with own := t1 } : Out τ σ ε).andThen fun t2 s2 b2 =>
      runPieces op arg d (piece (r % w)) (h + (r / w : Nat) * w) t2 s2 b2
  else
    (runPieces op arg d (List.replicate (r / w) w) h t1 s1 b1).andThen fun t2 s2 b2 =>
      runPieces op arg d (piece (r % w)) (h + (r / w : Nat) * w) t2 s2 b2

theorem Out.andThen_congr {o : Out τ σ ε} {t : τ} {k k' : τ → σ → (Int → Option Bool) → Out τ σ ε}
    (h : ∀ t1 s1 b1, ({ k t1 s1 b1 with own := t } : Out τ σ ε) = { k' t1 s1 b1 with own := t }) :
    ({ o.andThen k with own := t } : Out τ σ ε) = { o.andThen k' with own := t } := by
  obtain ⟨th, t1, s1, b1⟩ := o
  cases th with
  | some e => rfl
  | none => exact h t1 s1 b1

theorem after_eq {op : Op w γ τ σ ε} {arg : (Int → Option Bool) → Int → Nat → γ} {block : Bool} {d : Int} {n : Nat} {t : τ} {o : Out τ σ ε} :
    ({ o.andThen (after op arg block d n) with own := t } : Out τ σ ε) =
      { o.andThen fun t1 s1 b1 =>
          (runPieces op arg d (List.replicate ((n - headLen w d n) / w) w) (headLen w d n) t1 s1 b1).andThen fun t2 s2 b2 =>
            runPieces op arg d (piece ((n - headLen w d n) % w)) (headLen w d n + ((n - headLen w d n) / w : Nat) * w)
              (if block then t1 else t2) s2 b2 with own := t } := by
  apply Out.andThen_congr
  intro t1 s1 b1
  unfold after
  cases block with
  | false => rfl
  | true =>
    rw [if_pos rfl]
    dsimp only
    generalize runPieces op arg d _ _ t1 s1 b1 = o2
    obtain ⟨th, t2, s2, b2⟩ := o2
    cases th <;> rfl

theorem owp_copy' {x : CallM w τ σ ε α} {t : τ} {s : σ} {m : Mem w} {o' : Out τ σ ε} {P : α → Prop}
    (h : ∃ o : Out τ σ ε, { o with own := t } = o' ∧ owp x (t, s) m (Post o P)) : owp (onCopy x) (t, s) m (Post o' P) := by
  obtain ⟨o, rfl, h⟩ := h
  exact owp_copy h

theorem after_zero {op : Op w γ τ σ ε} {arg : (Int → Option Bool) → Int → Nat → γ} {block : Bool} {d : Int} {t : τ} {s : σ} {m : Mem w} {a : α} :
    Is ((runPieces op arg d (piece 0) 0 t s (bitAt m)).andThen (after op arg block d 0)) (.ok a) (t, s) m := by
  have h0 : headLen w d 0 = 0 := by have := headLen_le (w := w) d 0; omega
  cases block <;> simp [piece, runPieces, Out.andThen, after, h0, Is]

/-! ### unary -/

section unary
variable {op : Op w (BitVec w) τ σ ε} (S : ShiftSem w) {f d k : Int} {t : τ} {s : σ} {m : Mem w}

theorem owp_tail {rem : Nat} {first : BitIter w} {it : Int} (hf : first.Valid) (hr : rem < w) (e1 : first.addr = f + k)
    (e2 : 0 < rem → it * w = d + k) (hm1 : Mapped m first.addr (first.addr + rem)) (hm2 : Mapped m (d + k) (d + k + rem)) :
    owp (tail S op rem first it) (t, s) m (Post (runPieces op (arg1 w f d) d (piece rem) k t s (bitAt m)) fun _ => True) := by
  unfold tail
  by_cases h0 : rem > 0
  · have e2 := e2 h0
    rw [if_pos h0, piece_pos h0]
    have : (do
        let x ← words (getWord S first rem)
        let y ← call op x
        words (blendLowAt S it y rem) : CallM w τ σ ε Unit) =
      (words (getWord S first rem) >>= fun x => call op x >>= fun y => words (blendLowAt S it y rem) >>= fun _ => pure ()) := by
      congr 1; funext x; congr 1; funext y; rw [bind_pure_unit]
    rw [this]
    refine owp_step (arg := arg1 w f d) (d := d) (k := k) (l := rem) (ls := []) ?_ ?_ ?_ ?_
    · intro P hP
      refine wp_seen S hf (by omega) h0 hm1 (d := d + k) (by rw [← e2]; exact Int.mul_emod_left _ _) ?_
      rw [e1]; exact hP
    · intro y P hP
      refine wp_blendLowAt S hr h0 (by rw [e2]; exact hm2 _ (by omega) (by omega)) ?_
      intro m' hm'
      apply hP
      rw [← e2]
      simpa using put_of_wrote (m := m) (m' := m') (p := 0) (l := rem) (it := it) (y := y) (by omega) (by simpa using hm')
    · intro e t' s' h
      rw [h]
      exact ⟨⟨rfl, rfl, rfl⟩, fun _ _ => trivial⟩
    · intro t' s' m' y _ h
      rw [h]
      apply owp_pure
      exact ⟨⟨rfl, rfl, rfl⟩, fun _ _ => trivial⟩
  · have : rem = 0 := by omega
    subst this
    rw [if_neg h0]
    apply owp_pure
    exact ⟨⟨rfl, rfl, rfl⟩, fun _ _ => trivial⟩

theorem div_step {rem : Nat} (hw : 0 < w) (h : w ≤ rem) : rem / w = (rem - w) / w + 1 ∧ rem % w = (rem - w) % w := by
  constructor
  · rw [Nat.div_eq rem w, if_pos ⟨hw, h⟩]
  · rw [Nat.mod_eq rem w, if_pos ⟨hw, h⟩]

theorem owp_loop : ∀ (fuel rem : Nat) {first : BitIter w} {it k : Int} {t : τ} {s : σ} {m : Mem w},
    first.Valid → rem < fuel → first.addr = f + k → (0 < rem → it * w = d + k) →
    Mapped m first.addr (first.addr + rem) → Mapped m (d + k) (d + k + rem) →
    owp (loop S op fuel rem first it) (t, s) m
      (Post (runPieces op (arg1 w f d) d (List.replicate (rem / w) w ++ piece (rem % w)) k t s (bitAt m)) fun _ => True) := by
  intro fuel
  induction fuel with
  | zero => intro rem first it k t s m hf h; omega
  | succ fuel ih =>
    intro rem first it k t s m hf hfu e1 e2 hm1 hm2
    have hw : 0 < w := Nat.lt_of_le_of_lt (Nat.zero_le _) hf
    unfold loop
    by_cases h : rem ≥ w
    · have e2 := e2 (by omega)
      obtain ⟨q1, q2⟩ := div_step hw h
      rw [if_pos h, q1, q2, List.replicate_succ, List.cons_append]
      refine owp_step (arg := arg1 w f d) (d := d) (k := k) (l := w)
        (ls := List.replicate ((rem - w) / w) w ++ piece ((rem - w) % w)) ?_ ?_ ?_ ?_
      · intro P hP
        refine wp_seen S hf (by omega) hw (hm1.sub (by omega) (by omega)) (d := d + k)
          (by rw [← e2]; exact Int.mul_emod_left _ _) ?_
        rw [e1]; exact hP
      · intro y P hP
        refine wp_store_bits hw (it * w) (by omega) (by omega) (hm2 _ (by omega) (by omega)) ?_
        intro m' hm'
        apply hP
        rw [← e2]
        simpa using put_of_wrote (m := m) (m' := m') (p := 0) (l := w) (it := it) (y := y) (by omega) (by simpa using hm')
      · intro e t' s' h
        rw [h]
        exact ⟨⟨rfl, rfl, rfl⟩, fun _ _ => trivial⟩
      · intro t' s' m' y hp hr
        rw [hr]
        have a1 : (first.add w).addr = first.addr + w := BitIter.add_addr hw _ _
        refine ih (rem - w) (BitIter.add_valid hw _ _) (by omega) (by rw [a1]; omega) ?_ ?_ ?_
        · intro _; rw [Int.add_mul]; omega
        · rw [a1]; exact (put_mapped hp hm1).sub (by omega) (by omega)
        · exact (put_mapped hp hm2).sub (by omega) (by omega)
    · rw [if_neg h, Nat.div_eq_of_lt (by omega), Nat.mod_eq_of_lt (by omega)]
      exact owp_tail S hf (by omega) e1 e2 hm1 hm2

theorem owp_stdN (hw : 0 < w) : ∀ (n : Nat) {a b k : Int} {t : τ} {s : σ} {m : Mem w},
    a * w = f + k → b * w = d + k →
    Mapped m (f + k) (f + k + n * w) → Mapped m (d + k) (d + k + n * w) →
    owp (stdTransformN op n a b) (t, s) m
      (Post (runPieces op (arg1 w f d) d (List.replicate n w) k t s (bitAt m)) fun r => r = b + n) := by
  intro n
  induction n with
  | zero =>
    intro a b k t s m e1 e2 hm1 hm2
    unfold stdTransformN
    apply owp_pure
    exact ⟨⟨rfl, rfl, rfl⟩, fun r h => by cases h; simp⟩
  | succ n ih =>
    intro a b k t s m e1 e2 hm1 hm2
    have en : ((n + 1 : Nat) : Int) * (w : Int) = n * w + w := by push_cast; ring
    rw [en] at hm1 hm2
    have hnw : 0 ≤ (n : Int) * w := Int.mul_nonneg (by omega) (by omega)
    unfold stdTransformN
    rw [List.replicate_succ]
    refine owp_step (arg := arg1 w f d) (d := d) (k := k) (l := w) (ls := List.replicate n w) ?_ ?_ ?_ ?_
    · intro P hP
      refine wp_seen_load hw (by rw [e1]; exact hm1.sub (by omega) (by omega)) (d := d + k)
        (by rw [← e2]; exact Int.mul_emod_left _ _) ?_
      rw [e1]; exact hP
    · intro y P hP
      refine wp_store_bits hw (b * w) (by omega) (by omega) (hm2 _ (by omega) (by omega)) ?_
      intro m' hm'
      apply hP
      rw [← e2]
      simpa using put_of_wrote (m := m) (m' := m') (p := 0) (l := w) (it := b) (y := y) (by omega) (by simpa using hm')
    · intro e t' s' h
      rw [h]
      exact ⟨⟨rfl, rfl, rfl⟩, fun _ h => by cases h⟩
    · intro t' s' m' y hp hr
      rw [hr]
      refine owp_mono (ih (a := a + 1) (b := b + 1) (k := k + w) (by rw [Int.add_mul]; omega) (by rw [Int.add_mul]; omega) ?_ ?_) ?_
      · exact (put_mapped hp hm1).sub (by omega) (by omega)
      · exact (put_mapped hp hm2).sub (by omega) (by omega)
      · rintro r s m ⟨h1, h2⟩
        refine ⟨h1, fun a ha => ?_⟩
        rw [h2 a ha]; push_cast; omega

theorem owp_head {first dst : BitIter w} {n : Nat} (hf : first.Valid) (hd : dst.Valid) (hn : 0 < n)
    (hm1 : Mapped m first.addr (first.addr + n)) (hm2 : Mapped m dst.addr (dst.addr + n)) :
    owp (head S op first dst n) (t, s) m
      (Post (runPieces op (arg1 w first.addr dst.addr) dst.addr (piece (headLen w dst.addr n)) 0 t s (bitAt m)) fun r =>
        r.1 = n - headLen w dst.addr n ∧ r.2.1.Valid ∧ r.2.1.addr = first.addr + headLen w dst.addr n ∧
          (0 < n - headLen w dst.addr n → r.2.2 * w = dst.addr + headLen w dst.addr n)) := by
  have hd' : dst.pos < w := hd
  have hw : 0 < w := by omega
  have hda : dst.addr = dst.base * w + dst.pos := rfl
  have hh := headLen_addr hd n
  unfold head
  by_cases h0 : dst.pos ≠ 0
  · rw [if_neg h0] at hh
    rw [if_pos h0]
    generalize headLen w dst.addr n = l at hh ⊢
    rw [← hh, piece_pos (by omega)]
    refine owp_step (arg := arg1 w first.addr dst.addr) (d := dst.addr) (k := 0) (l := l) (ls := []) ?_ ?_ ?_ ?_
    · intro P hP
      refine wp_seen_shl S hf (by omega) (by omega) (hm1.sub (by omega) (by omega)) hd ?_
      simpa [arg1] using hP
    · intro y P hP
      refine wp_blendAt S (by omega) (by omega) (Or.inl (by omega)) (hm2 _ (by omega) (by omega)) ?_
      intro m' hm'
      apply hP
      rw [Int.add_zero, hda]
      exact put_of_wrote (by omega) hm'
    · intro e t' s' h
      rw [h]
      exact ⟨⟨rfl, rfl, rfl⟩, fun _ h => by cases h⟩
    · intro t' s' m' y hp hr
      rw [hr]
      apply owp_pure
      refine ⟨⟨rfl, rfl, rfl⟩, fun r hr => ?_⟩
      cases hr
      refine ⟨rfl, BitIter.add_valid hw _ _, BitIter.add_addr hw _ _, ?_⟩
      intro h
      show (dst.base + 1) * (w : Int) = _
      rw [Int.add_mul]; omega
  · rw [if_pos (by omega)] at hh
    rw [if_neg h0, hh]
    apply owp_pure
    refine ⟨⟨rfl, rfl, rfl⟩, fun r hr => ?_⟩
    cases hr
    refine ⟨by simp, hf, by simp, fun _ => ?_⟩
    show dst.base * (w : Int) = _
    omega

theorem owp_std {a e b : Int} {n : Nat} (hw : 0 < w) (hn : e - a = n) (e1 : a * w = f + k) (e2 : b * w = d + k)
    (hm1 : Mapped m (f + k) (f + k + n * w)) (hm2 : Mapped m (d + k) (d + k + n * w)) :
    owp (stdTransform op a e b) (t, s) m
      (Post { runPieces op (arg1 w f d) d (List.replicate n w) k t s (bitAt m) with own := t } fun r => r = b + n) := by
  unfold stdTransform
  apply owp_copy
  apply owp_bind
  apply owp_words
  rw [wp_wordDist]
  refine ⟨by omega, ?_⟩
  rw [hn, Int.toNat_natCast]
  exact owp_stdN hw n e1 e2 hm1 hm2

theorem owp_transform {first last dst : BitIter w} (hr : Range m first last) (hd : Dest m dst (len first last)) :
    owp (transform S op first last dst) (t, s) m
      (Post (expected op (arg1 w first.addr dst.addr) (block1 w first.addr dst.addr (len first last).toNat) dst.addr
        (len first last).toNat t s (bitAt m)) fun r => r.Valid ∧ r.addr = dst.addr + len first last) := by
  obtain ⟨hf, hl, hle, hm1⟩ := hr
  obtain ⟨hdv, hm2⟩ := hd
  have hw : 0 < w := Nat.lt_of_le_of_lt (Nat.zero_le _) hf
  obtain ⟨n, hn⟩ : ∃ n : Nat, len first last = n := ⟨(len first last).toNat, by unfold len; omega⟩
  rw [hn, Int.toNat_natCast]
  have hn' : last.addr - first.addr = n := hn
  rw [hn] at hm2
  have hm1' : Mapped m first.addr (first.addr + n) := hm1.sub (by omega) (by omega)
  unfold transform expected
  apply owp_copy'
  refine ⟨(runPieces op (arg1 w first.addr dst.addr) dst.addr (piece (headLen w dst.addr n)) 0 t s (bitAt m)).andThen
    (after op (arg1 w first.addr dst.addr) (block1 w first.addr dst.addr n) dst.addr n), after_eq, ?_⟩
  apply owp_bind
  apply owp_words
  rw [wp_assertViable]
  refine ⟨hle, ?_⟩
  by_cases h : first.beq last
  · rw [BitIter.beq_iff hf hl] at h
    have hn0 : n = 0 := by omega
    subst hn0
    have h0 : headLen w dst.addr 0 = 0 := by have := headLen_le (w := w) dst.addr 0; omega
    show owp (if _ then _ else _) _ _ _
    rw [if_pos (by rw [BitIter.beq_iff hf hl]; exact h)]
    apply owp_pure
    refine ⟨?_, fun r hr => by cases hr; exact ⟨hdv, by omega⟩⟩
    rw [h0]
    exact after_zero
  · show owp (if _ then _ else _) _ _ _
    rw [if_neg h]
    rw [BitIter.beq_iff hf hl] at h
    apply owp_bind
    apply owp_words
    rw [wp_distance]
    refine ⟨hle, ?_⟩
    rw [hn']
    show owp _ _ _ _
    rw [Int.toNat_natCast]
    refine owp_andThen (owp_head S hf hdv (by omega) hm1' hm2) ?_
    rintro ⟨rem, first', it⟩ m1 ⟨p1, p2, p3, p4⟩ hnone hb
    have hmap : ∀ a b, Mapped m a b → Mapped m1 a b := by
      intro a b hab i h1 h2
      rw [hb]
      exact runPieces_mapped _ _ _ _ _ (hab i h1 h2)
    generalize Out.own _ = t1
    generalize Out.shared _ = s1
    have hhl := headLen_le (w := w) dst.addr n
    dsimp only at p1 p2 p3 p4 ⊢
    generalize hh : headLen w dst.addr n = l at *
    subst p1
    have hres : (dst.add n).Valid ∧ (dst.add n).addr = dst.addr + n := ⟨BitIter.add_valid hw _ _, BitIter.add_addr hw _ _⟩
    have hpost : ∀ {o : Out τ σ ε} {r : Except ε (BitIter w)} {s' : τ × σ} {m' : Mem w},
        Post o (fun a => a = dst.add n) r s' m' → Post o (fun r => r.Valid ∧ r.addr = dst.addr + n) r s' m' := by
      rintro o r s' m' ⟨h1, h2⟩
      exact ⟨h1, fun a ha => by rw [h2 a ha]; exact hres⟩
    unfold after
    rw [hh]
    dsimp only
    by_cases h0 : n - l > 0
    · rw [if_pos h0]
      have p4 := p4 h0
      have hm1a : Mapped m1 (first.addr + l) (first.addr + l + (n - l : Nat)) := (hmap _ _ hm1').sub (by omega) (by omega)
      have hm2a : Mapped m1 (dst.addr + l) (dst.addr + l + (n - l : Nat)) := (hmap _ _ hm2).sub (by omega) (by omega)
      have hq := Nat.div_add_mod (n - l) w
      have hq' : ((n - l) / w * w : Nat) + (n - l) % w = n - l := by rw [Nat.mul_comm]; exact hq
      have hqz : (((n - l) / w : Nat) : Int) * w + ((n - l) % w : Nat) = (n - l : Nat) := by exact_mod_cast hq'
      have hrm : (n - l) % w < w := Nat.mod_lt _ hw
      by_cases hc : first'.pos = 0 ∧ n - l > w
      · have hbl : block1 w first.addr dst.addr n = true := by
          unfold block1
          rw [hh, decide_eq_true_eq, ← p3]
          refine ⟨?_, hc.2⟩
          unfold BitIter.addr
          rw [hc.1]; simp
        have ha : first'.base * (w : Int) = first.addr + l := by
          rw [← p3]; unfold BitIter.addr; rw [hc.1]; simp
        have hN : last.base - first'.base = ((n - l) / w : Nat) := by
          have hla : last.addr = last.base * w + last.pos := rfl
          have hlp : last.pos < w := hl
          have e : (last.base - first'.base) * (w : Int) + last.pos = (n - l : Nat) := by rw [Int.sub_mul]; omega
          have e2 : ((n - l : Nat) : Int) / w = last.base - first'.base := by
            rw [← e, Int.add_comm, Int.add_mul_ediv_right _ _ (by omega), Int.ediv_eq_zero_of_lt (by omega) (by omega)]
            omega
          rw [← e2]; push_cast; rfl
        rw [if_pos hc, hbl]
        apply owp_bind
        apply owp_words
        rw [wp_wordDist]
        refine ⟨Int.le_of_sub_nonneg (by rw [hN]; exact Int.natCast_nonneg _), ?_⟩
        rw [hN, Int.toNat_natCast]
        show owp _ _ _ _
        rw [if_pos rfl]
        refine owp_mono (owp_andThen (P' := fun a => a = dst.add n)
          (owp_std (f := first.addr) (d := dst.addr) (k := l) hw hN ha p4 (hm1a.sub (by omega) (by omega)) (hm2a.sub (by omega) (by omega))) ?_)
          (fun _ _ _ => hpost)
        rintro it' m2 rfl hnone2 hb2
        have hmap2 : ∀ a b, Mapped m1 a b → Mapped m2 a b := by
          intro a b hab i h1 h2
          rw [hb2]
          exact runPieces_mapped _ _ _ _ _ (hab i h1 h2)
        generalize Out.own _ = t2
        generalize Out.shared _ = s2
        rw [subSize_le (by rw [Nat.mul_comm]; omega), show n - l - w * ((n - l) / w) = (n - l) % w by omega]
        apply owp_done (P := fun _ => True)
        have ha2 : (⟨first'.base + ((n - l) / w : Nat), 0⟩ : BitIter w).addr = first.addr + (l + ((n - l) / w : Nat) * w) := by
          show (first'.base + ((n - l) / w : Nat)) * (w : Int) + (0 : Nat) = _
          rw [Int.add_mul]; omega
        refine owp_tail S (f := first.addr) (d := dst.addr) hw hrm ha2 (fun _ => ?_) ?_ ?_
        · rw [Int.add_mul]; omega
        · rw [ha2]; exact (hmap2 _ _ hm1a).sub (by omega) (by omega)
        · exact (hmap2 _ _ hm2a).sub (by omega) (by omega)
      · have hbl : block1 w first.addr dst.addr n = false := by
          unfold block1
          rw [hh, decide_eq_false_iff_not, ← p3]
          intro hcc
          apply hc
          refine ⟨?_, hcc.2⟩
          have := addr_emod p2
          omega
        rw [if_neg hc, hbl, if_neg (by decide)]
        refine owp_mono (owp_done (P := fun _ => True) ?_) (fun _ _ _ => hpost)
        have := owp_loop (op := op) (t := t1) (s := s1) S (f := first.addr) (d := dst.addr) (n - l + 1) (n - l) (it := it) (k := l)
          p2 (by omega) p3 (fun _ => p4)
          (by rw [p3]; exact hm1a) hm2a
        rw [runPieces_append] at this
        simpa using this
    · rw [if_neg h0, show n - l = 0 by omega]
      apply owp_pure
      refine ⟨?_, fun r hr => by cases hr; exact hres⟩
      simp [piece, runPieces, Out.andThen, Is]

end unary

/-! ### binary -/

section binary
variable {op : Op w (BitVec w × BitVec w) τ σ ε} (S : ShiftSem w) {f g d k : Int} {t : τ} {s : σ} {m : Mem w}

theorem owp_tail2 {rem : Nat} {first second : BitIter w} {it : Int} (hf : first.Valid) (hg : second.Valid) (hr : rem < w) (e1 : first.addr = f + k) (e3 : second.addr = g + k)
    (e2 : 0 < rem → it * w = d + k) (hm1 : Mapped m first.addr (first.addr + rem)) (hm3 : Mapped m second.addr (second.addr + rem)) (hm2 : Mapped m (d + k) (d + k + rem)) :
    owp (tail2 S op rem first second it) (t, s) m (Post (runPieces op (arg2 w f g d) d (piece rem) k t s (bitAt m)) fun _ => True) := by
  unfold tail2
  by_cases h0 : rem > 0
  · have e2 := e2 h0
    rw [if_pos h0, piece_pos h0]
    have : (do
        let x ← words (do let x ← getWord S first rem; let y ← getWord S second rem; pure (x, y))
        let y ← call op x
        words (blendLowAt S it y rem) : CallM w τ σ ε Unit) =
      (words (do let x ← getWord S first rem; let y ← getWord S second rem; pure (x, y)) >>= fun x => call op x >>= fun y => words (blendLowAt S it y rem) >>= fun _ => pure ()) := by
      congr 1; funext x; congr 1; funext y; rw [bind_pure_unit]
    rw [this]
    refine owp_step (arg := arg2 w f g d) (d := d) (k := k) (l := rem) (ls := []) ?_ ?_ ?_ ?_
    · intro P hP
      rw [wp_bind]
      refine wp_seen S hf (by omega) h0 hm1 (d := d + k) (by rw [← e2]; exact Int.mul_emod_left _ _) ?_
      rw [wp_bind]
      refine wp_seen S hg (by omega) h0 hm3 (d := d + k) (by rw [← e2]; exact Int.mul_emod_left _ _) ?_
      rw [wp_pure, e1, e3]; exact hP
    · intro y P hP
      refine wp_blendLowAt S hr h0 (by rw [e2]; exact hm2 _ (by omega) (by omega)) ?_
      intro m' hm'
      apply hP
      rw [← e2]
      simpa using put_of_wrote (m := m) (m' := m') (p := 0) (l := rem) (it := it) (y := y) (by omega) (by simpa using hm')
    · intro e t' s' h
      rw [h]
      exact ⟨⟨rfl, rfl, rfl⟩, fun _ _ => trivial⟩
    · intro t' s' m' y _ h
      rw [h]
      apply owp_pure
      exact ⟨⟨rfl, rfl, rfl⟩, fun _ _ => trivial⟩
  · have : rem = 0 := by omega
    subst this
    rw [if_neg h0]
    apply owp_pure
    exact ⟨⟨rfl, rfl, rfl⟩, fun _ _ => trivial⟩

theorem owp_loop2 : ∀ (fuel rem : Nat) {first second : BitIter w} {it k : Int} {t : τ} {s : σ} {m : Mem w},
    first.Valid → second.Valid → rem < fuel → first.addr = f + k → second.addr = g + k → (0 < rem → it * w = d + k) →
    Mapped m first.addr (first.addr + rem) → Mapped m second.addr (second.addr + rem) → Mapped m (d + k) (d + k + rem) →
    owp (loop2 S op fuel rem first second it) (t, s) m
      (Post (runPieces op (arg2 w f g d) d (List.replicate (rem / w) w ++ piece (rem % w)) k t s (bitAt m)) fun _ => True) := by
  intro fuel
  induction fuel with
  | zero => intro rem first second it k t s m hf hg h; omega
  | succ fuel ih =>
    intro rem first second it k t s m hf hg hfu e1 e3 e2 hm1 hm3 hm2
    have hw : 0 < w := Nat.lt_of_le_of_lt (Nat.zero_le _) hf
    unfold loop2
    by_cases h : rem ≥ w
    · have e2 := e2 (by omega)
      obtain ⟨q1, q2⟩ := div_step hw h
      rw [if_pos h, q1, q2, List.replicate_succ, List.cons_append]
      refine owp_step (arg := arg2 w f g d) (d := d) (k := k) (l := w)
        (ls := List.replicate ((rem - w) / w) w ++ piece ((rem - w) % w)) ?_ ?_ ?_ ?_
      · intro P hP
        rw [wp_bind]
        refine wp_seen S hf (by omega) hw (hm1.sub (by omega) (by omega)) (d := d + k)
          (by rw [← e2]; exact Int.mul_emod_left _ _) ?_
        rw [wp_bind]
        refine wp_seen S hg (by omega) hw (hm3.sub (by omega) (by omega)) (d := d + k)
          (by rw [← e2]; exact Int.mul_emod_left _ _) ?_
        rw [wp_pure, e1, e3]; exact hP
      · intro y P hP
        refine wp_store_bits hw (it * w) (by omega) (by omega) (hm2 _ (by omega) (by omega)) ?_
        intro m' hm'
        apply hP
        rw [← e2]
        simpa using put_of_wrote (m := m) (m' := m') (p := 0) (l := w) (it := it) (y := y) (by omega) (by simpa using hm')
      · intro e t' s' h
        rw [h]
        exact ⟨⟨rfl, rfl, rfl⟩, fun _ _ => trivial⟩
      · intro t' s' m' y hp hr
        rw [hr]
        have a1 : (first.add w).addr = first.addr + w := BitIter.add_addr hw _ _
        have a2 : (second.add w).addr = second.addr + w := BitIter.add_addr hw _ _
        refine ih (rem - w) (BitIter.add_valid hw _ _) (BitIter.add_valid hw _ _) (by omega) (by rw [a1]; omega) (by rw [a2]; omega) ?_ ?_ ?_ ?_
        · intro _; rw [Int.add_mul]; omega
        · rw [a1]; exact (put_mapped hp hm1).sub (by omega) (by omega)
        · rw [a2]; exact (put_mapped hp hm3).sub (by omega) (by omega)
        · exact (put_mapped hp hm2).sub (by omega) (by omega)
    · rw [if_neg h, Nat.div_eq_of_lt (by omega), Nat.mod_eq_of_lt (by omega)]
      exact owp_tail2 S hf hg (by omega) e1 e3 e2 hm1 hm3 hm2

theorem owp_stdN2 (hw : 0 < w) : ∀ (n : Nat) {a c b k : Int} {t : τ} {s : σ} {m : Mem w},
    a * w = f + k → c * w = g + k → b * w = d + k →
    Mapped m (f + k) (f + k + n * w) → Mapped m (g + k) (g + k + n * w) → Mapped m (d + k) (d + k + n * w) →
    owp (stdTransform2N op n a c b) (t, s) m
      (Post (runPieces op (arg2 w f g d) d (List.replicate n w) k t s (bitAt m)) fun r => r = b + n) := by
  intro n
  induction n with
  | zero =>
    intro a c b k t s m e1 e3 e2 hm1 hm3 hm2
    unfold stdTransform2N
    apply owp_pure
    exact ⟨⟨rfl, rfl, rfl⟩, fun r h => by cases h; simp⟩
  | succ n ih =>
    intro a c b k t s m e1 e3 e2 hm1 hm3 hm2
    have en : ((n + 1 : Nat) : Int) * (w : Int) = n * w + w := by push_cast; ring
    rw [en] at hm1 hm3 hm2
    have hnw : 0 ≤ (n : Int) * w := Int.mul_nonneg (by omega) (by omega)
    unfold stdTransform2N
    rw [List.replicate_succ]
    refine owp_step (arg := arg2 w f g d) (d := d) (k := k) (l := w) (ls := List.replicate n w) ?_ ?_ ?_ ?_
    · intro P hP
      rw [wp_bind]
      refine wp_seen_load hw (by rw [e1]; exact hm1.sub (by omega) (by omega)) (d := d + k)
        (by rw [← e2]; exact Int.mul_emod_left _ _) ?_
      rw [wp_bind]
      refine wp_seen_load hw (by rw [e3]; exact hm3.sub (by omega) (by omega)) (d := d + k)
        (by rw [← e2]; exact Int.mul_emod_left _ _) ?_
      rw [wp_pure, e1, e3]; exact hP
    · intro y P hP
      refine wp_store_bits hw (b * w) (by omega) (by omega) (hm2 _ (by omega) (by omega)) ?_
      intro m' hm'
      apply hP
      rw [← e2]
      simpa using put_of_wrote (m := m) (m' := m') (p := 0) (l := w) (it := b) (y := y) (by omega) (by simpa using hm')
    · intro e t' s' h
      rw [h]
      exact ⟨⟨rfl, rfl, rfl⟩, fun _ h => by cases h⟩
    · intro t' s' m' y hp hr
      rw [hr]
      refine owp_mono (ih (a := a + 1) (c := c + 1) (b := b + 1) (k := k + w) (by rw [Int.add_mul]; omega) (by rw [Int.add_mul]; omega)
        (by rw [Int.add_mul]; omega) ?_ ?_ ?_) ?_
      · exact (put_mapped hp hm1).sub (by omega) (by omega)
      · exact (put_mapped hp hm3).sub (by omega) (by omega)
      · exact (put_mapped hp hm2).sub (by omega) (by omega)
      · rintro r s m ⟨h1, h2⟩
        refine ⟨h1, fun a ha => ?_⟩
        rw [h2 a ha]; push_cast; omega

theorem owp_head2 {first second dst : BitIter w} {n : Nat} (hf : first.Valid) (hg : second.Valid) (hd : dst.Valid) (hn : 0 < n)
    (hm1 : Mapped m first.addr (first.addr + n)) (hm3 : Mapped m second.addr (second.addr + n)) (hm2 : Mapped m dst.addr (dst.addr + n)) :
    owp (head2 S op first second dst n) (t, s) m
      (Post (runPieces op (arg2 w first.addr second.addr dst.addr) dst.addr (piece (headLen w dst.addr n)) 0 t s (bitAt m)) fun r =>
        r.1 = n - headLen w dst.addr n ∧ r.2.1.Valid ∧ r.2.1.addr = first.addr + headLen w dst.addr n ∧
          r.2.2.1.Valid ∧ r.2.2.1.addr = second.addr + headLen w dst.addr n ∧
          (0 < n - headLen w dst.addr n → r.2.2.2 * w = dst.addr + headLen w dst.addr n)) := by
  have hd' : dst.pos < w := hd
  have hw : 0 < w := by omega
  have hda : dst.addr = dst.base * w + dst.pos := rfl
  have hh := headLen_addr hd n
  unfold head2
  by_cases h0 : dst.pos ≠ 0
  · rw [if_neg h0] at hh
    rw [if_pos h0]
    generalize headLen w dst.addr n = l at hh ⊢
    rw [← hh, piece_pos (by omega)]
    refine owp_step (arg := arg2 w first.addr second.addr dst.addr) (d := dst.addr) (k := 0) (l := l) (ls := []) ?_ ?_ ?_ ?_
    · intro P hP
      have hc : ∀ Q : BitVec w → Mem w → Prop, ∀ it : BitIter w, ∀ (K : BitVec w → M w (BitVec w × BitVec w)) (P : BitVec w × BitVec w → Mem w → Prop),
          wp (getWord S it l >>= fun x => lift (S.shl x dst.pos)) m (fun x m' => wp (K x) m' P) →
          wp (getWord S it l >>= fun x => lift (S.shl x dst.pos) >>= K) m P := by
        intro Q it K P h
        rw [wp_bind] at h ⊢
        refine wp_mono h ?_
        intro a m' h
        rw [wp_bind]; exact h
      refine hc (fun _ _ => True) _ _ _ ?_
      refine wp_seen_shl S hf (by omega) (by omega) (hm1.sub (by omega) (by omega)) hd ?_
      refine hc (fun _ _ => True) _ _ _ ?_
      refine wp_seen_shl S hg (by omega) (by omega) (hm3.sub (by omega) (by omega)) hd ?_
      rw [wp_pure]
      simpa [arg2] using hP
    · intro y P hP
      refine wp_blendAt S (by omega) (by omega) (Or.inl (by omega)) (hm2 _ (by omega) (by omega)) ?_
      intro m' hm'
      apply hP
      rw [Int.add_zero, hda]
      exact put_of_wrote (by omega) hm'
    · intro e t' s' h
      rw [h]
      exact ⟨⟨rfl, rfl, rfl⟩, fun _ h => by cases h⟩
    · intro t' s' m' y hp hr
      rw [hr]
      apply owp_pure
      refine ⟨⟨rfl, rfl, rfl⟩, fun r hr => ?_⟩
      cases hr
      refine ⟨rfl, BitIter.add_valid hw _ _, BitIter.add_addr hw _ _, BitIter.add_valid hw _ _, BitIter.add_addr hw _ _, ?_⟩
      intro h
      show (dst.base + 1) * (w : Int) = _
      rw [Int.add_mul]; omega
  · rw [if_pos (by omega)] at hh
    rw [if_neg h0, hh]
    apply owp_pure
    refine ⟨⟨rfl, rfl, rfl⟩, fun r hr => ?_⟩
    cases hr
    refine ⟨by simp, hf, by simp, hg, by simp, fun _ => ?_⟩
    show dst.base * (w : Int) = _
    omega

theorem owp_std2 {a e c b : Int} {n : Nat} (hw : 0 < w) (hn : e - a = n) (e1 : a * w = f + k) (e3 : c * w = g + k) (e2 : b * w = d + k)
    (hm1 : Mapped m (f + k) (f + k + n * w)) (hm3 : Mapped m (g + k) (g + k + n * w)) (hm2 : Mapped m (d + k) (d + k + n * w)) :
    owp (stdTransform2 op a e c b) (t, s) m
      (Post { runPieces op (arg2 w f g d) d (List.replicate n w) k t s (bitAt m) with own := t } fun r => r = b + n) := by
  unfold stdTransform2
  apply owp_copy
  apply owp_bind
  apply owp_words
  rw [wp_wordDist]
  refine ⟨by omega, ?_⟩
  rw [hn, Int.toNat_natCast]
  exact owp_stdN2 hw n e1 e3 e2 hm1 hm3 hm2

theorem owp_transform2 {first last second dst : BitIter w} (hr : Range m first last) (hs : Dest m second (len first last)) (hd : Dest m dst (len first last)) :
    owp (transform2 S op first last second dst) (t, s) m
      (Post (expected op (arg2 w first.addr second.addr dst.addr) (block2 w first.addr second.addr dst.addr (len first last).toNat) dst.addr
        (len first last).toNat t s (bitAt m)) fun r => r.Valid ∧ r.addr = dst.addr + len first last) := by
  obtain ⟨hf, hl, hle, hm1⟩ := hr
  obtain ⟨hdv, hm2⟩ := hd
  obtain ⟨hg, hm3⟩ := hs
  have hw : 0 < w := Nat.lt_of_le_of_lt (Nat.zero_le _) hf
  obtain ⟨n, hn⟩ : ∃ n : Nat, len first last = n := ⟨(len first last).toNat, by unfold len; omega⟩
  rw [hn, Int.toNat_natCast]
  have hn' : last.addr - first.addr = n := hn
  rw [hn] at hm2 hm3
  have hm1' : Mapped m first.addr (first.addr + n) := hm1.sub (by omega) (by omega)
  unfold transform2 expected
  apply owp_copy'
  refine ⟨(runPieces op (arg2 w first.addr second.addr dst.addr) dst.addr (piece (headLen w dst.addr n)) 0 t s (bitAt m)).andThen
    (after op (arg2 w first.addr second.addr dst.addr) (block2 w first.addr second.addr dst.addr n) dst.addr n), after_eq, ?_⟩
  apply owp_bind
  apply owp_words
  rw [wp_assertViable]
  refine ⟨hle, ?_⟩
  by_cases h : first.beq last
  · rw [BitIter.beq_iff hf hl] at h
    have hn0 : n = 0 := by omega
    subst hn0
    have h0 : headLen w dst.addr 0 = 0 := by have := headLen_le (w := w) dst.addr 0; omega
    show owp (if _ then _ else _) _ _ _
    rw [if_pos (by rw [BitIter.beq_iff hf hl]; exact h)]
    apply owp_pure
    refine ⟨?_, fun r hr => by cases hr; exact ⟨hdv, by omega⟩⟩
    rw [h0]
    exact after_zero
  · show owp (if _ then _ else _) _ _ _
    rw [if_neg h]
    rw [BitIter.beq_iff hf hl] at h
    apply owp_bind
    apply owp_words
    rw [wp_distance]
    refine ⟨hle, ?_⟩
    rw [hn']
    show owp _ _ _ _
    rw [Int.toNat_natCast]
    refine owp_andThen (owp_head2 S hf hg hdv (by omega) hm1' hm3 hm2) ?_
    rintro ⟨rem, first', second', it⟩ m1 ⟨p1, p2, p3, p5, p6, p4⟩ hnone hb
    have hmap : ∀ a b, Mapped m a b → Mapped m1 a b := by
      intro a b hab i h1 h2
      rw [hb]
      exact runPieces_mapped _ _ _ _ _ (hab i h1 h2)
    generalize Out.own _ = t1
    generalize Out.shared _ = s1
    have hhl := headLen_le (w := w) dst.addr n
    dsimp only at p1 p2 p3 p4 p5 p6 ⊢
    generalize hh : headLen w dst.addr n = l at *
    subst p1
    have hres : (dst.add n).Valid ∧ (dst.add n).addr = dst.addr + n := ⟨BitIter.add_valid hw _ _, BitIter.add_addr hw _ _⟩
    have hpost : ∀ {o : Out τ σ ε} {r : Except ε (BitIter w)} {s' : τ × σ} {m' : Mem w},
        Post o (fun a => a = dst.add n) r s' m' → Post o (fun r => r.Valid ∧ r.addr = dst.addr + n) r s' m' := by
      rintro o r s' m' ⟨h1, h2⟩
      exact ⟨h1, fun a ha => by rw [h2 a ha]; exact hres⟩
    unfold after
    rw [hh]
    dsimp only
    by_cases h0 : n - l > 0
    · rw [if_pos h0]
      have p4 := p4 h0
      have hm1a : Mapped m1 (first.addr + l) (first.addr + l + (n - l : Nat)) := (hmap _ _ hm1').sub (by omega) (by omega)
      have hm3a : Mapped m1 (second.addr + l) (second.addr + l + (n - l : Nat)) := (hmap _ _ hm3).sub (by omega) (by omega)
      have hm2a : Mapped m1 (dst.addr + l) (dst.addr + l + (n - l : Nat)) := (hmap _ _ hm2).sub (by omega) (by omega)
      have hq := Nat.div_add_mod (n - l) w
      have hq' : ((n - l) / w * w : Nat) + (n - l) % w = n - l := by rw [Nat.mul_comm]; exact hq
      have hqz : (((n - l) / w : Nat) : Int) * w + ((n - l) % w : Nat) = (n - l : Nat) := by exact_mod_cast hq'
      have hrm : (n - l) % w < w := Nat.mod_lt _ hw
      by_cases hc : first'.pos = 0 ∧ second'.pos = 0 ∧ n - l > w
      · have hbl : block2 w first.addr second.addr dst.addr n = true := by
          unfold block2
          rw [hh, decide_eq_true_eq, ← p3, ← p6]
          refine ⟨?_, ?_, hc.2.2⟩
          · unfold BitIter.addr
            rw [hc.1]; simp
          · unfold BitIter.addr
            rw [hc.2.1]; simp
        have ha : first'.base * (w : Int) = first.addr + l := by
          rw [← p3]; unfold BitIter.addr; rw [hc.1]; simp
        have hg' : second'.base * (w : Int) = second.addr + l := by
          rw [← p6]; unfold BitIter.addr; rw [hc.2.1]; simp
        have hN : last.base - first'.base = ((n - l) / w : Nat) := by
          have hla : last.addr = last.base * w + last.pos := rfl
          have hlp : last.pos < w := hl
          have e : (last.base - first'.base) * (w : Int) + last.pos = (n - l : Nat) := by rw [Int.sub_mul]; omega
          have e2 : ((n - l : Nat) : Int) / w = last.base - first'.base := by
            rw [← e, Int.add_comm, Int.add_mul_ediv_right _ _ (by omega), Int.ediv_eq_zero_of_lt (by omega) (by omega)]
            omega
          rw [← e2]; push_cast; rfl
        rw [if_pos hc, hbl]
        apply owp_bind
        apply owp_words
        rw [wp_wordDist]
        refine ⟨Int.le_of_sub_nonneg (by rw [hN]; exact Int.natCast_nonneg _), ?_⟩
        rw [hN, Int.toNat_natCast]
        show owp _ _ _ _
        rw [if_pos rfl]
        refine owp_mono (owp_andThen (P' := fun a => a = dst.add n)
          (owp_std2 (f := first.addr) (g := second.addr) (d := dst.addr) (k := l) hw hN ha hg' p4 (hm1a.sub (by omega) (by omega))
            (hm3a.sub (by omega) (by omega)) (hm2a.sub (by omega) (by omega))) ?_)
          (fun _ _ _ => hpost)
        rintro it' m2 rfl hnone2 hb2
        have hmap2 : ∀ a b, Mapped m1 a b → Mapped m2 a b := by
          intro a b hab i h1 h2
          rw [hb2]
          exact runPieces_mapped _ _ _ _ _ (hab i h1 h2)
        generalize Out.own _ = t2
        generalize Out.shared _ = s2
        rw [subSize_le (by rw [Nat.mul_comm]; omega), show n - l - w * ((n - l) / w) = (n - l) % w by omega]
        apply owp_done (P := fun _ => True)
        have ha2 : (first'.add ((w : Int) * ((n - l) / w : Nat))).addr = first.addr + (l + ((n - l) / w : Nat) * w) := by
          rw [BitIter.add_addr hw, Int.mul_comm]; omega
        have hg2 : (second'.add ((w : Int) * ((n - l) / w : Nat))).addr = second.addr + (l + ((n - l) / w : Nat) * w) := by
          rw [BitIter.add_addr hw, Int.mul_comm]; omega
        refine owp_tail2 S (f := first.addr) (g := second.addr) (d := dst.addr) (BitIter.add_valid hw _ _) (BitIter.add_valid hw _ _) hrm
          ha2 hg2 (fun _ => ?_) ?_ ?_ ?_
        · rw [Int.add_mul]; omega
        · rw [ha2]; exact (hmap2 _ _ hm1a).sub (by omega) (by omega)
        · rw [hg2]; exact (hmap2 _ _ hm3a).sub (by omega) (by omega)
        · exact (hmap2 _ _ hm2a).sub (by omega) (by omega)
      · have hbl : block2 w first.addr second.addr dst.addr n = false := by
          unfold block2
          rw [hh, decide_eq_false_iff_not, ← p3, ← p6]
          intro hcc
          apply hc
          have e1 := addr_emod p2
          have e2 := addr_emod p5
          refine ⟨?_, ?_, hcc.2.2⟩
          · omega
          · omega
        rw [if_neg hc, hbl, if_neg (by decide)]
        refine owp_mono (owp_done (P := fun _ => True) ?_) (fun _ _ _ => hpost)
        have := owp_loop2 (op := op) (t := t1) (s := s1) S (f := first.addr) (g := second.addr) (d := dst.addr) (n - l + 1) (n - l) (it := it) (k := l)
          p2 p5 (by omega) p3 p6 (fun _ => p4)
          (by rw [p3]; exact hm1a) (by rw [p6]; exact hm3a) hm2a
        rw [runPieces_append] at this
        simpa using this
    · rw [if_neg h0, show n - l = 0 by omega]
      apply owp_pure
      refine ⟨?_, fun r hr => by cases hr; exact hres⟩
      simp [piece, runPieces, Out.andThen, Is]

end binary

end BitLib.OpCalls
