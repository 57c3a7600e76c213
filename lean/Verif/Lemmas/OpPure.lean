import Verif.Lemmas.OpCalls
/- `transform` with an operation that is called: pure operations, objects that keep nothing, the number of calls, the frame. -/
namespace BitLib.OpCalls
open BitLib
variable {w : Nat} {γ τ σ ε α β : Type}

/-! ### pure operations -/

theorem words_pure (a : α) : (words (pure a) : CallM w τ σ ε α) = pure a := rfl

theorem words_run (x : M w α) (s : τ × σ) (m : Mem w) : (words x : CallM w τ σ ε α).run s m = match x m with
    | .ok (a, m') => .ok ((.ok a, s), m')
    | .error u => .error u := rfl

theorem words_bind (x : M w α) (f : α → M w β) :
    (words (x >>= f) : CallM w τ σ ε β) = words x >>= fun a => words (f a) := by
  refine ExceptT.ext ?_
  funext s m
  have e1 : (x >>= f) m = (Except.bind (x m) fun p => f p.1 p.2) := rfl
  have key : (words x >>= fun a => words (f a) : CallM w τ σ ε β).run s m =
    (Except.bind ((words x : CallM w τ σ ε α).run s m) fun p => ExceptT.bindCont (fun a => words (f a)) p.1.1 p.1.2 p.2) := rfl
  rw [key]
  show (match (x >>= f) m with | .ok (a, m') => _ | .error u => _) = _
  rw [e1]
  have e2 : (words x : CallM w τ σ ε α).run s m = match x m with
    | .ok (a, m') => .ok ((.ok a, s), m')
    | .error u => .error u := rfl
  rw [e2]
  rcases x m with u | ⟨a, m'⟩ <;> rfl

theorem onCopy_words (x : M w α) : (onCopy (words x) : CallM w τ σ ε α) = words x := by
  refine ExceptT.ext ?_
  funext s m
  show (match (words x : CallM w τ σ ε α).run s m with | .ok ((r, s'), m') => _ | .error u => _) = (words x : CallM w τ σ ε α).run s m
  have e2 : (words x : CallM w τ σ ε α).run s m = match x m with
    | .ok (a, m') => .ok ((.ok a, s), m')
    | .error u => .error u := rfl
  rw [e2]
  rcases x m with u | ⟨a, m'⟩ <;> rfl

theorem words_ite {c : Prop} [Decidable c] (x y : M w α) : (words (if c then x else y) : CallM w τ σ ε α) = if c then words x else words y := by
  split <;> rfl

/-- A function as an operation. -/
def pureOp (g : γ → BitVec w) : Op w γ τ σ ε := fun x s => (.ok (g x), s)

theorem call_pure (g : γ → BitVec w) (x : γ) : (call (pureOp g) x : CallM w τ σ ε (BitVec w)) = pure (g x) := rfl

section unary
variable (S : ShiftSem w) (g : BitVec w → BitVec w)

theorem stdN_pure : ∀ (n : Nat) (a b : Int),
    (stdTransformN (pureOp g) n a b : CallM w τ σ ε Int) = words (BitLib.stdTransformN g n a b) := by
  intro n
  induction n with
  | zero => intro a b; rfl
  | succ n ih =>
    intro a b
    unfold stdTransformN BitLib.stdTransformN
    simp only [words_bind, call_pure, pure_bind, ih]

theorem head_pure (first dst : BitIter w) (n : Nat) :
    (head S (pureOp g) first dst n : CallM w τ σ ε _) = words (transformHead S g first dst n) := by
  unfold head transformHead
  rw [words_ite]
  simp only [words_bind, call_pure, pure_bind, words_pure, bind_assoc]

theorem tail_pure (rem : Nat) (first : BitIter w) (it : Int) :
    (tail S (pureOp g) rem first it : CallM w τ σ ε _) = words (transformTail S g rem first it) := by
  unfold tail transformTail
  rw [words_ite]
  simp only [words_bind, call_pure, pure_bind, words_pure]

theorem loop_pure : ∀ (fuel rem : Nat) (first : BitIter w) (it : Int),
    (loop S (pureOp g) fuel rem first it : CallM w τ σ ε _) = words (transformLoop S g fuel rem first it) := by
  intro fuel
  induction fuel with
  | zero => intros; rfl
  | succ fuel ih =>
    intro rem first it
    unfold loop transformLoop
    rw [words_ite]
    simp only [words_bind, call_pure, pure_bind, ih, tail_pure]

theorem std_pure (a e b : Int) : (stdTransform (pureOp g) a e b : CallM w τ σ ε Int) = words (BitLib.stdTransform a e b g) := by
  unfold stdTransform BitLib.stdTransform
  rw [words_bind]
  simp only [stdN_pure]
  rw [← words_bind, onCopy_words]

theorem transform_pure (first last dst : BitIter w) :
    (transform S (pureOp g) first last dst : CallM w τ σ ε _) = words (BitLib.transform S g first last dst) := by
  unfold transform
  rw [← onCopy_words (BitLib.transform S g first last dst)]
  unfold BitLib.transform
  simp only [words_bind, words_ite, words_pure, head_pure, loop_pure, std_pure, tail_pure]

end unary

section binary
variable (S : ShiftSem w) (g : BitVec w → BitVec w → BitVec w)

theorem stdN_pure2 : ∀ (n : Nat) (a c b : Int),
    (stdTransform2N (pureOp fun p => g p.1 p.2) n a c b : CallM w τ σ ε Int) = words (BitLib.stdTransform2N g n a c b) := by
  intro n
  induction n with
  | zero => intros; rfl
  | succ n ih =>
    intro a c b
    unfold stdTransform2N BitLib.stdTransform2N
    simp only [words_bind, call_pure, pure_bind, ih, bind_assoc, words_pure]

theorem head_pure2 (first second dst : BitIter w) (n : Nat) :
    (head2 S (pureOp fun p => g p.1 p.2) first second dst n : CallM w τ σ ε _) = words (transform2Head S g first second dst n) := by
  unfold head2 transform2Head
  rw [words_ite]
  simp only [words_bind, call_pure, pure_bind, words_pure, bind_assoc]

theorem tail_pure2 (rem : Nat) (first second : BitIter w) (it : Int) :
    (tail2 S (pureOp fun p => g p.1 p.2) rem first second it : CallM w τ σ ε _) = words (transform2Tail S g rem first second it) := by
  unfold tail2 transform2Tail
  rw [words_ite]
  simp only [words_bind, call_pure, pure_bind, words_pure, bind_assoc]

theorem loop_pure2 : ∀ (fuel rem : Nat) (first second : BitIter w) (it : Int),
    (loop2 S (pureOp fun p => g p.1 p.2) fuel rem first second it : CallM w τ σ ε _) = words (transform2Loop S g fuel rem first second it) := by
  intro fuel
  induction fuel with
  | zero => intros; rfl
  | succ fuel ih =>
    intro rem first second it
    unfold loop2 transform2Loop
    rw [words_ite]
    simp only [words_bind, call_pure, pure_bind, ih, tail_pure2, bind_assoc, words_pure]

theorem std_pure2 (a e c b : Int) :
    (stdTransform2 (pureOp fun p => g p.1 p.2) a e c b : CallM w τ σ ε Int) = words (BitLib.stdTransform2 a e c b g) := by
  unfold stdTransform2 BitLib.stdTransform2
  rw [words_bind]
  simp only [stdN_pure2]
  rw [← words_bind, onCopy_words]

theorem transform_pure2 (first last second dst : BitIter w) :
    (transform2 S (pureOp fun p => g p.1 p.2) first last second dst : CallM w τ σ ε _) = words (BitLib.transform2 S g first last second dst) := by
  unfold transform2
  rw [← onCopy_words (BitLib.transform2 S g first last second dst)]
  unfold BitLib.transform2
  simp only [words_bind, words_ite, words_pure, head_pure2, loop_pure2, std_pure2, tail_pure2]

end binary

/-! ### objects that keep nothing -/

theorem runPieces_own {op : Op w γ τ σ ε} (hop : ∀ x s, (op x s).2.1 = s.1) {arg : (Int → Option Bool) → Int → Nat → γ} {d : Int} :
    ∀ (ls : List Nat) (k : Int) (t : τ) (s : σ) (b : Int → Option Bool), (runPieces op arg d ls k t s b).own = t := by
  intro ls
  induction ls with
  | nil => intros; rfl
  | cons l ls ih =>
    intro k t s b
    simp only [runPieces]
    have h := hop (arg b k l) (t, s)
    rcases ho : op (arg b k l) (t, s) with ⟨r, t', s'⟩
    rw [ho] at h
    cases r with
    | error e => exact h
    | ok y => simp only []; rw [ih]; exact h

theorem Out.andThen_assoc (o : Out τ σ ε) (k k' : τ → σ → (Int → Option Bool) → Out τ σ ε) :
    (o.andThen k).andThen k' = o.andThen fun t s b => (k t s b).andThen k' := by
  obtain ⟨th, t, s, b⟩ := o
  cases th <;> rfl

theorem piece_sum (l : Nat) : (piece l).sum = l := by
  unfold piece; split <;> simp_all

theorem expected_own {op : Op w γ τ σ ε} (hop : ∀ x s, (op x s).2.1 = s.1) {arg : (Int → Option Bool) → Int → Nat → γ} {block : Bool} {d : Int}
    {n : Nat} {t : τ} {s : σ} {b : Int → Option Bool} :
    expected op arg block d n t s b = runPieces op arg d (pieces w d n) 0 t s b := by
  have key : runPieces op arg d (pieces w d n) 0 t s b =
      ((runPieces op arg d (piece (headLen w d n)) 0 t s b).andThen fun t1 s1 b1 =>
        (runPieces op arg d (List.replicate ((n - headLen w d n) / w) w) (headLen w d n) t1 s1 b1).andThen fun t2 s2 b2 =>
          runPieces op arg d (piece ((n - headLen w d n) % w)) (headLen w d n + ((n - headLen w d n) / w : Nat) * w)
            (if block then t1 else t2) s2 b2) := by
    unfold pieces
    dsimp only
    rw [List.append_assoc, runPieces_append]
    rw [piece_sum]
    congr 1
    funext t1 s1 b1
    rw [runPieces_append]
    have h := runPieces_own hop (arg := arg) (d := d) (List.replicate ((n - headLen w d n) / w) w) (0 + (headLen w d n : Int)) t1 s1 b1
    rw [Int.zero_add] at h ⊢
    generalize runPieces op arg d (List.replicate ((n - headLen w d n) / w) w) (headLen w d n) t1 s1 b1 = o at h ⊢
    obtain ⟨th, t2, s2, b2⟩ := o
    cases th with
    | some e => rfl
    | none =>
      have h : t2 = t1 := h
      subst h
      simp [Out.andThen]
  have ho : (runPieces op arg d (pieces w d n) 0 t s b).own = t := runPieces_own hop _ _ _ _ _
  unfold expected
  dsimp only
  rw [← key]
  generalize runPieces op arg d (pieces w d n) 0 t s b = o at ho ⊢
  obtain ⟨th, t2, s2, b2⟩ := o
  have ho : t2 = t := ho
  subst ho
  rfl

/-! ### the frame -/

theorem runPieces_frame {op : Op w γ τ σ ε} {arg : (Int → Option Bool) → Int → Nat → γ} {d i : Int} :
    ∀ (ls : List Nat) (k : Int) (t : τ) (s : σ) (b : Int → Option Bool), (i < d + k ∨ d + k + (ls.sum : Nat) ≤ i) →
      (runPieces op arg d ls k t s b).bits i = b i := by
  intro ls
  induction ls with
  | nil => intros; rfl
  | cons l ls ih =>
    intro k t s b h
    rw [List.sum_cons] at h
    simp only [runPieces]
    rcases op (arg b k l) (t, s) with ⟨r, t', s'⟩
    cases r with
    | error e => rfl
    | ok y =>
      simp only []
      rw [ih _ _ _ _ (by omega), if_neg (by omega)]

theorem andThen_frame {o : Out τ σ ε} {k : τ → σ → (Int → Option Bool) → Out τ σ ε} {i : Int} {v : Option Bool} (h1 : o.bits i = v)
    (h2 : ∀ t s b, b i = v → (k t s b).bits i = v) : (o.andThen k).bits i = v := by
  obtain ⟨th, t, s, b⟩ := o
  cases th with
  | some e => exact h1
  | none => exact h2 _ _ _ h1

theorem replicate_sum (q l : Nat) : (List.replicate q l).sum = l * q := by
  induction q with
  | zero => rfl
  | succ q ih => rw [List.replicate_succ, List.sum_cons, ih]; ring

theorem expected_frame {op : Op w γ τ σ ε} {arg : (Int → Option Bool) → Int → Nat → γ} {block : Bool} {d i : Int}
    {n : Nat} {t : τ} {s : σ} {b : Int → Option Bool} (h : i < d ∨ d + n ≤ i) : (expected op arg block d n t s b).bits i = b i := by
  have hl := headLen_le (w := w) d n
  have hq := Nat.div_add_mod (n - headLen w d n) w
  have hq' : (w : Int) * ((n - headLen w d n) / w : Nat) + ((n - headLen w d n) % w : Nat) = (n - headLen w d n : Nat) := by exact_mod_cast hq
  have hq0 : (0 : Int) ≤ ((n - headLen w d n) % w : Nat) := Int.natCast_nonneg _
  have hq1 : (0 : Int) ≤ (w : Int) * ((n - headLen w d n) / w : Nat) := Int.mul_nonneg (Int.natCast_nonneg _) (Int.natCast_nonneg _)
  have hs : ((List.replicate ((n - headLen w d n) / w) w).sum : Int) = (w : Int) * ((n - headLen w d n) / w : Nat) := by
    rw [replicate_sum]; push_cast; ring
  unfold expected
  dsimp only
  generalize ((n - headLen w d n) / w : Nat) = q at *
  generalize ((n - headLen w d n) % w : Nat) = r at *
  apply andThen_frame
  · apply runPieces_frame; rw [piece_sum]; omega
  · intro t1 s1 b1 h1
    apply andThen_frame
    · rw [runPieces_frame, h1]; rw [hs]; omega
    · intro t2 s2 b2 h2
      rw [runPieces_frame, h2]
      rw [piece_sum, Int.mul_comm (q : Int)]; omega

/-! ### the number of calls -/

/-- An operation that counts its calls, beside what it does. -/
def counted (op : Op w γ τ σ ε) : Op w γ τ (σ × Nat) ε := fun x s =>
  let o := op x (s.1, s.2.1)
  (o.1, o.2.1, o.2.2, s.2.2 + 1)

theorem runPieces_count {op : Op w γ τ σ ε} {arg : (Int → Option Bool) → Int → Nat → γ} {d : Int} :
    ∀ (ls : List Nat) (k : Int) (t : τ) (s : σ × Nat) (b : Int → Option Bool),
      (((runPieces (counted op) arg d ls k t s b).thrown = none → (runPieces (counted op) arg d ls k t s b).shared.2 = s.2 + ls.length) ∧
      ((runPieces (counted op) arg d ls k t s b).thrown ≠ none → s.2 < (runPieces (counted op) arg d ls k t s b).shared.2 ∧
        (runPieces (counted op) arg d ls k t s b).shared.2 ≤ s.2 + ls.length)) := by
  intro ls
  induction ls with
  | nil => intro k t s b; simp [runPieces]
  | cons l ls ih =>
    intro k t s b
    simp only [runPieces]
    have h : (counted op (arg b k l) (t, s)).2.2.2 = s.2 + 1 := rfl
    rcases ho : counted op (arg b k l) (t, s) with ⟨r, t', s'⟩
    rw [ho] at h
    dsimp only at h
    cases r with
    | error e => simp only [List.length_cons]; refine ⟨fun h => (by cases h), fun _ => ?_⟩; omega
    | ok y =>
      simp only [List.length_cons]
      have := ih (k + l) t' s' (fun a => if d + k ≤ a ∧ a < d + k + l then some (y.getLsbD (a % w).toNat) else b a)
      generalize runPieces (counted op) arg d ls (k + l) t' s' _ = o at this ⊢
      refine ⟨fun h => by rw [this.1 h]; omega, fun h => ?_⟩
      have := this.2 h; omega

theorem andThen_count {o : Out τ (σ × Nat) ε} {k : τ → σ × Nat → (Int → Option Bool) → Out τ (σ × Nat) ε} {c n1 n2 : Nat}
    (h1 : (o.thrown = none → o.shared.2 = c + n1) ∧ (o.thrown ≠ none → c < o.shared.2 ∧ o.shared.2 ≤ c + n1))
    (h2 : ∀ t s b, s.2 = c + n1 → ((k t s b).thrown = none → (k t s b).shared.2 = c + n1 + n2) ∧
      ((k t s b).thrown ≠ none → c + n1 < (k t s b).shared.2 ∧ (k t s b).shared.2 ≤ c + n1 + n2)) :
    ((o.andThen k).thrown = none → (o.andThen k).shared.2 = c + (n1 + n2)) ∧
      ((o.andThen k).thrown ≠ none → c < (o.andThen k).shared.2 ∧ (o.andThen k).shared.2 ≤ c + (n1 + n2)) := by
  obtain ⟨th, t, s, b⟩ := o
  cases th with
  | some e =>
    refine ⟨fun h => (by cases h), fun _ => ?_⟩
    have := h1.2 (by simp)
    simp only [Out.andThen] at this ⊢
    omega
  | none =>
    have h2 := h2 t s b (h1.1 rfl)
    simp only [Out.andThen]
    refine ⟨fun h => by rw [h2.1 h]; omega, fun h => ?_⟩
    have := h2.2 h
    omega

theorem expected_count {op : Op w γ τ σ ε} {arg : (Int → Option Bool) → Int → Nat → γ} {block : Bool} {d : Int}
    {n : Nat} {t : τ} {s : σ × Nat} {b : Int → Option Bool} :
    let o := expected (counted op) arg block d n t s b
    (o.thrown = none → o.shared.2 = s.2 + (pieces w d n).length) ∧
      (o.thrown ≠ none → s.2 < o.shared.2 ∧ o.shared.2 ≤ s.2 + (pieces w d n).length) := by
  have hp : (pieces w d n).length = (piece (headLen w d n)).length + ((List.replicate ((n - headLen w d n) / w) w).length +
      (piece ((n - headLen w d n) % w)).length) := by
    unfold pieces; dsimp only; rw [List.length_append, List.length_append]; omega
  rw [hp]
  unfold expected
  dsimp only
  apply andThen_count
  · exact runPieces_count _ _ _ _ _
  · intro t1 s1 b1 h1
    rw [← h1]
    apply andThen_count
    · exact runPieces_count _ _ _ _ _
    · intro t2 s2 b2 h2
      rw [← h2]
      exact runPieces_count _ _ _ _ _

theorem piece_length (l : Nat) : (piece l).length = if l = 0 then 0 else 1 := by
  unfold piece; split <;> rfl

theorem pieces_length (hw : 0 < w) (d : Int) (n : Nat) : (pieces w d n).length = wordsOf w d n := by
  have h1 : 0 ≤ d % (w : Int) := Int.emod_nonneg _ (by omega)
  have h2 : d % (w : Int) < w := Int.emod_lt_of_pos _ (by omega)
  have hl := headLen_le (w := w) d n
  have hd := Int.mul_ediv_add_emod d w
  unfold pieces wordsOf
  dsimp only
  rw [List.length_append, List.length_append, List.length_replicate, piece_length, piece_length]
  have hq := Nat.div_add_mod (n - headLen w d n) w
  have hrm : (n - headLen w d n) % w < w := Nat.mod_lt _ hw
  generalize hQ : (n - headLen w d n) / w = q at *
  generalize hR : (n - headLen w d n) % w = r at *
  by_cases hn : n = 0
  · subst hn
    have : headLen w d 0 = 0 := by omega
    rw [this] at hq ⊢
    have hr0 : r = 0 := by have := Nat.zero_le (w * q); omega
    have hq0 : q = 0 := by
      have : w * q = 0 := by omega
      rcases Nat.mul_eq_zero.1 this with h | h
      · omega
      · exact h
    subst hr0 hq0; simp
  · rw [if_neg hn]
    -- the last bit
    have key : ∀ z v : Int, v * w ≤ z → z < v * w + w → z / w = v := by
      intro z v a b
      have e : z = (z - v * w) + v * w := by omega
      rw [e, Int.add_mul_ediv_right _ _ (by omega), Int.ediv_eq_zero_of_lt (by omega) (by omega)]
      omega
    have hqz : (w : Int) * (q : Int) + r = (n - headLen w d n : Nat) := by exact_mod_cast hq
    have hqm : (w : Int) * (q : Int) = q * w := Int.mul_comm _ _
    have hdm : (w : Int) * (d / w) = d / w * w := Int.mul_comm _ _
    by_cases hz : d % (w : Int) = 0
    · have hh : headLen w d n = 0 := by unfold headLen; rw [if_pos hz]
      rw [hh] at hqz ⊢
      by_cases hr : r = 0
      · subst hr
        have : (d + n - 1) / (w : Int) = d / w + q - 1 := by
          apply key <;> rw [Int.sub_mul, Int.add_mul] <;> omega
        rw [this]; simp <;> omega
      · have : (d + n - 1) / (w : Int) = d / w + q := by
          apply key <;> rw [Int.add_mul] <;> omega
        rw [this, if_neg hr]; simp <;> omega
    · have hh : headLen w d n = min n (w - (d % (w : Int)).toNat) := by unfold headLen; rw [if_neg hz]
      have hpos : ¬ headLen w d n = 0 := by omega
      rw [if_neg hpos]
      by_cases hlt : n ≤ w - (d % (w : Int)).toNat
      · have : (d + n - 1) / (w : Int) = d / w := by apply key <;> omega
        have hz' : n - headLen w d n = 0 := by omega
        rw [hz'] at hq
        have hr0 : r = 0 := by have := Nat.zero_le (w * q); omega
        have hq0 : q = 0 := by
          have : w * q = 0 := by omega
          rcases Nat.mul_eq_zero.1 this with h | h
          · omega
          · exact h
        subst hr0 hq0
        rw [this]; simp
      · by_cases hr : r = 0
        · subst hr
          have : (d + n - 1) / (w : Int) = d / w + q := by
            apply key <;> rw [Int.add_mul] <;> omega
          rw [this]; simp <;> omega
        · have : (d + n - 1) / (w : Int) = d / w + q + 1 := by
            apply key <;> rw [Int.add_mul, Int.add_mul] <;> omega
          rw [this, if_neg hr]; omega

end BitLib.OpCalls
