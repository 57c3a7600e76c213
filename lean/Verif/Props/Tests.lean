import Verif.Lemmas.Fixture
/-
C81: the repository's own tests, for every value their random numbers can take.
-/
namespace BitLib.Tests
open Op (at')
variable {w : Nat}

/-- C81: a test whose calls are valid passes on every machine on which shifts by the whole width of a word are defined, and on every machine if
no call makes such a shift. -/
theorem C81_passes (hw : 0 < w) (S : ShiftSem w) (P : Policy) (p : Prog w) (h : Heap w) (vs : List BV) (bs : List (List Bool)) (e : EnvOk h vs bs)
    (hv : Valid p bs) (hc : Calm p bs ∨ S.FullShiftOk) :
    ∃ vs' h', run S P p vs bs h = .ok (((vs', after p bs), true), h') ∧ EnvOk h' vs' (after p bs) := run_ok hw S P p e hv hc

/-- C81: for words that are not promoted to `int` a test whose calls are valid passes exactly if no call shifts a word by its whole width, and is
undefined otherwise; it never ends with a failed expectation. -/
theorem C81_unpromoted (hw : 0 < w) (P : Policy) (p : Prog w) (h : Heap w) (vs : List BV) (bs : List (List Bool)) (e : EnvOk h vs bs)
    (hv : Valid p bs) :
    (Passes (Unpromoted w) P p h vs bs ↔ Calm p bs) ∧ (¬ Calm p bs → run (Unpromoted w) P p vs bs h = .error (.ub .overshift)) := by
  refine ⟨⟨?_, fun hc => ?_⟩, run_bad hw P p e hv⟩
  · rintro ⟨vs', bs', h', e1⟩
    by_contra hc
    rw [run_bad hw P p e hv hc] at e1
    cases e1
  · obtain ⟨vs', h', e1, -⟩ := run_ok hw (Unpromoted w) P p e hv (.inl hc)
    exact ⟨vs', _, h', e1⟩

/-! ### What a verdict says -/

/-- C81: the verdict on one statement, for any call that left the bit_vectors with elements `ls` and answered `a` — right or wrong: the statement
passes exactly if the answer that it compares is the right one and every comparison of elements finds equal elements. -/
theorem C81_verdict (hw : 0 < w) (S : ShiftSem w) (P : Policy) (f : List (List Bool) → Step w) (h h1 : Heap w) (vs vs1 : List BV)
    (bs ls : List (List Bool)) (a : Ans) (he : (f bs).act.exec S P vs h = .ok ((vs1, a), h1)) (e1 : EnvOk h1 vs1 ls)
    (hd : ∀ c ∈ (f bs).checks, c.Defined ls ((f bs).act.std bs).1 a ((f bs).act.std bs).2) :
    ∃ x, run S P [f] vs bs h = .ok (((vs1, ((f bs).act.std bs).1), x), h1) ∧
      (x = true ↔ ((f bs).answer = true → a = ((f bs).act.std bs).2) ∧ ∀ c ∈ (f bs).checks, c.Met ls ((f bs).act.std bs).1 a ((f bs).act.std bs).2) := by
  obtain ⟨c, ec, ic⟩ := checks_dec hw S e1 _ hd
  refine ⟨(!(f bs).answer || decide (a = ((f bs).act.std bs).2)) && c, ?_, ?_⟩
  · unfold run
    have e2 : run S P [] vs1 ((f bs).act.std bs).1 h1 = .ok (((vs1, ((f bs).act.std bs).1), true), h1) := rfl
    refine (runV_bind_ok he).trans ((runV_bind_ok ec).trans ((runV_bind_ok e2).trans ?_))
    show Except.ok _ = _
    rw [Bool.and_true]
  · rw [Bool.and_eq_true, ic, Bool.or_eq_true, decide_eq_true_iff, Bool.not_eq_true']
    cases (f bs).answer <;> simp

/-- C81: the verdict on a longer test: both parts passed. A failed expectation anywhere fails the whole test. -/
theorem C81_both (S : ShiftSem w) (P : Policy) (p q : Prog w) (vs vs1 : List BV) (bs bs1 : List (List Bool)) (h h1 h2 : Heap w) (b1 b2 : Bool)
    (t : List BV × List (List Bool)) (e1 : run S P p vs bs h = .ok (((vs1, bs1), b1), h1)) (e2 : run S P q vs1 bs1 h1 = .ok ((t, b2), h2)) :
    ∃ b, run S P (p ++ q) vs bs h = .ok ((t, b), h2) ∧ (b = true ↔ b1 = true ∧ b2 = true) :=
  ⟨_, run_append_ok p q e1 e2, by rw [Bool.and_eq_true]⟩

/-- C81: a test detects every difference that it compares: if after a statement some comparison meets different elements, or the compared answer is
another one, the test does not pass, whatever follows. -/
theorem C81_detects (hw : 0 < w) (S : ShiftSem w) (P : Policy) (f : List (List Bool) → Step w) (q : Prog w) (h h1 : Heap w) (vs vs1 : List BV)
    (bs ls : List (List Bool)) (a : Ans) (he : (f bs).act.exec S P vs h = .ok ((vs1, a), h1)) (e1 : EnvOk h1 vs1 ls)
    (hd : ∀ c ∈ (f bs).checks, c.Defined ls ((f bs).act.std bs).1 a ((f bs).act.std bs).2)
    (bad : ((f bs).answer = true ∧ a ≠ ((f bs).act.std bs).2) ∨ ∃ c ∈ (f bs).checks, ¬ c.Met ls ((f bs).act.std bs).1 a ((f bs).act.std bs).2) :
    ¬ Passes S P (f :: q) h vs bs := by
  rintro ⟨vs', bs', h', e2⟩
  obtain ⟨x, e3, hx⟩ := C81_verdict hw S P f h h1 vs vs1 bs ls a he e1 hd
  have hx' : x = false := by
    rcases Bool.eq_false_or_eq_true x with hxx | hxx
    · obtain ⟨k1, k2⟩ := hx.1 hxx
      rcases bad with ⟨b1, b2⟩ | ⟨c, hc, b2⟩
      · exact absurd (k1 b1) b2
      · exact absurd (k2 c hc) b2
    · exact hxx
  subst hx'
  cases e4 : run S P q vs1 ((f bs).act.std bs).1 h1 with
  | error y =>
    have : run S P ([f] ++ q) vs bs h = _ := run_append_right [f] q e3 e4
    rw [List.singleton_append, e2] at this
    cases this
  | ok r =>
    obtain ⟨⟨t, b2⟩, h2⟩ := r
    have : run S P ([f] ++ q) vs bs h = _ := run_append_ok [f] q e3 e4
    rw [List.singleton_append, e2] at this
    cases this

/-! ### Tests on two ranges -/

theorem valid_call (bs : List (List Bool)) (c : Call w) (answer : Bool) (cs : List Check) (ha : c.Alg) (hpl : (Act.call c).Plain) (hpre : c.Pre bs)
    (hs : (Act.call c).Size bs) (hc : ∀ x ∈ cs, x.Whole bs) : (⟨.call c, answer, cs⟩ : Step w).Valid bs := by
  have hlen := (same_std bs c ha hpre).1
  refine ⟨hpl, hpre, hs, fun x hx => ?_⟩
  have := hc x hx
  cases x with
  | all i => exact lt_of_lt_of_eq this hlen.symm
  | before i => exact this.elim
  | after i => exact this.elim

theorem whole_one {bs : List (List Bool)} {i : Nat} (hi : i < bs.length) : ∀ x ∈ [Check.all i], x.Whole bs := by
  intro x hx
  rw [List.mem_singleton] at hx
  subst hx
  exact hi

theorem whole_nil {bs : List (List Bool)} : ∀ x ∈ ([] : List Check), x.Whole bs := by
  intro x hx
  simp at hx

/-- What the draws of a round say about the two vectors in it. -/
theorem two_parts {N k : Nat} {bs0 bs : List (List Bool)} (hb0 : TwoRanges N bs0) (hk : k < N) (hb : Ext bs0 bs) {d : Draw2}
    (hd : d.InRange w (sz bs0 k)) :
    Call.Part bs k d.start1 (sz bs k - d.end1) ∧ Call.Part bs (N + k) d.start2 (d.start2 + (sz bs k - d.end1 - d.start1)) ∧ sz bs k = sz bs0 k := by
  obtain ⟨l1, s1⟩ := hb0
  obtain ⟨l2, s2⟩ := hb
  obtain ⟨h1, h2⟩ := s1 k hk
  obtain ⟨d1, d2, d3, d4⟩ := hd
  have e1 := s2 k (by omega)
  have e2 := s2 (N + k) (by omega)
  unfold sz at *
  refine ⟨⟨by omega, by omega, by omega⟩, ⟨by omega, by omega, by omega⟩, e1⟩

/-- Every round is judged by the draw and the sizes. -/
theorem two_loop {N : Nat} {bs : List (List Bool)} {ds : List Draw2} (hl : ds.length ≤ N)
    (R : Nat → Draw2 → Prop) (hd : DrawsIn R bs ds) (p : List (List Bool) → Step w → Prop) (iter : Nat → Draw2 → Prog w) (C : Nat → Draw2 → Prop)
    (step : ∀ k bs', k < N → Ext bs bs' → ∀ d, R (sz bs k) d → (Always p (iter k d) bs' ↔ C (sz bs k) d) ∧ Same bs' (after (iter k d) bs')) :
    Always p (loop iter 0 ds) bs ↔ ∀ k (hk : k < ds.length), C (sz bs k) ds[k] := by
  have := (loop_iff p iter (fun k d => C (sz bs k) d) bs ds 0 (fun k hk bs' hb' => ?_) bs (.refl _)).1
  · simpa using this
  · rw [Nat.zero_add]
    have := step k bs' (by omega) hb' _ (hd k hk)
    exact ⟨this.1, this.2.ext⟩

/-- A valid call that shifts no word by its whole width. -/
def Fine (bs : List (List Bool)) (s : Step w) : Prop := s.Valid bs ∧ s.act.Calm bs

theorem passes_of_fine (hw : 0 < w) (S : ShiftSem w) (P : Policy) {p : Prog w} {h : Heap w} {vs : List BV} {bs : List (List Bool)}
    (e : EnvOk h vs bs) (hf : Always Fine p bs) : Passes S P p h vs bs := by
  obtain ⟨h1, h2⟩ := (always_and (fun bs s => s.Valid bs) (fun bs s => s.act.Calm bs) p bs).1 hf
  obtain ⟨vs', h', e1, -⟩ := run_ok hw S P p e h1 (.inl h2)
  exact ⟨vs', _, h', e1⟩

/-- A valid call of an algorithm that shifts no word by its whole width. -/
theorem fine_call {bs : List (List Bool)} {c : Call w} {answer : Bool} {cs : List Check} (ha : c.Alg) (hpl : (Act.call c).Plain) (hpre : c.Pre bs)
    (hs : (Act.call c).Size bs) (hcalm : (Act.call c).Calm bs) (hc : ∀ x ∈ cs, x.Whole bs) : Fine bs (⟨.call c, answer, cs⟩ : Step w) ↔ True :=
  iff_true_intro ⟨valid_call bs c answer cs ha hpl hpre hs hc, hcalm⟩

/-- C81: the `Copy` test passes on every machine, whatever it draws. -/
theorem C81_copy (hw : 0 < w) (S : ShiftSem w) (P : Policy) (h : Heap w) (vs : List BV) (bs : List (List Bool)) (e : EnvOk h vs bs) (N : Nat)
    (ds : List Draw2) (hb : TwoRanges N bs) (hl : ds.length ≤ N)
    (hd : DrawsIn (fun n d => d.InRange w n ∧ d.again ≤ d.start1) bs ds) : Passes S P (loop (copyIter N) 0 ds) h vs bs := by
  refine passes_of_fine hw S P e ((two_loop hl _ hd Fine _ (fun _ _ => True ∧ True ∧ True) fun k bs' hk hb' d ⟨r1, r2⟩ => ?_).2 (by simp))
  obtain ⟨p1, p2, -⟩ := two_parts hb hk hb' r1
  have c1 : (Call.copy k d.start1 (sz bs' k - d.end1) (N + k) d.start2 : Call w).Pre bs' := ⟨p1, p2, fun h => by omega⟩
  refine alg_cons _ rfl (by trivial) c1 (fine_call trivial trivial c1 trivial trivial (whole_one p2.1)) fun bs2 s1 => ?_
  obtain ⟨q1, -⟩ := two_parts hb hk (hb'.trans s1.ext) r1
  have c2 : (Call.copy k d.start1 (sz bs2 k - d.end1) k d.again : Call w).Pre bs2 := by
    refine ⟨q1, ⟨q1.1, Nat.le_add_right _ _, ?_⟩, fun _ => .inl r2⟩
    have h1 := q1.2.1
    have h2 := q1.2.2
    omega
  exact alg_cons _ rfl (by trivial) c2 (fine_call trivial trivial c2 trivial trivial (whole_one q1.1)) fun bs3 _ => alg_nil _ _

/-- C81: the `Move` test passes on every machine, whatever it draws. -/
theorem C81_move (hw : 0 < w) (S : ShiftSem w) (P : Policy) (h : Heap w) (vs : List BV) (bs : List (List Bool)) (e : EnvOk h vs bs) (N : Nat)
    (ds : List Draw2) (hb : TwoRanges N bs) (hl : ds.length ≤ N)
    (hd : DrawsIn (fun n d => d.InRange w n ∧ d.again ≤ d.start1) bs ds) : Passes S P (loop (moveIter N) 0 ds) h vs bs := by
  refine passes_of_fine hw S P e ((two_loop hl _ hd Fine _ (fun _ _ => True ∧ True ∧ True) fun k bs' hk hb' d ⟨r1, r2⟩ => ?_).2 (by simp))
  obtain ⟨p1, p2, -⟩ := two_parts hb hk hb' r1
  have c1 : (Call.move k d.start1 (sz bs' k - d.end1) (N + k) d.start2 : Call w).Pre bs' := ⟨p1, p2, fun h => by omega⟩
  refine alg_cons _ rfl (by trivial) c1 (fine_call trivial trivial c1 trivial trivial (whole_one p2.1)) fun bs2 s1 => ?_
  obtain ⟨q1, -⟩ := two_parts hb hk (hb'.trans s1.ext) r1
  have c2 : (Call.move k d.start1 (sz bs2 k - d.end1) k d.again : Call w).Pre bs2 := by
    refine ⟨q1, ⟨q1.1, Nat.le_add_right _ _, ?_⟩, fun _ => .inl r2⟩
    have h1 := q1.2.1
    have h2 := q1.2.2
    omega
  exact alg_cons _ rfl (by trivial) c2 (fine_call trivial trivial c2 trivial trivial (whole_one q1.1)) fun bs3 _ => alg_nil _ _

/-- C81: the `Equal` test passes on every machine, whatever it draws. -/
theorem C81_equal (hw : 0 < w) (S : ShiftSem w) (P : Policy) (h : Heap w) (vs : List BV) (bs : List (List Bool)) (e : EnvOk h vs bs) (N : Nat)
    (ds : List Draw2) (hb : TwoRanges N bs) (hl : ds.length ≤ N) (hd : DrawsIn (fun n d => d.InRange w n) bs ds) :
    Passes S P (loop (equalIter N) 0 ds) h vs bs := by
  refine passes_of_fine hw S P e ((two_loop hl _ hd Fine _ (fun _ _ => True ∧ True ∧ True ∧ True) fun k bs' hk hb' d r1 => ?_).2 (by simp))
  obtain ⟨p1, p2, -⟩ := two_parts hb hk hb' r1
  have c1 : (Call.equal k d.start1 (sz bs' k - d.end1) (N + k) d.start2 : Call w).Pre bs' := ⟨p1, p2⟩
  refine alg_cons _ rfl (by trivial) c1 (fine_call trivial trivial c1 trivial trivial (whole_one p2.1)) fun bs2 s1 => ?_
  obtain ⟨q1, q2, -⟩ := two_parts hb hk (hb'.trans s1.ext) r1
  have c2 : (Call.copy k d.start1 (sz bs2 k - d.end1) (N + k) d.start2 : Call w).Pre bs2 := ⟨q1, q2, fun h => by omega⟩
  refine alg_cons _ rfl (by trivial) c2 (fine_call trivial trivial c2 trivial trivial whole_nil) fun bs3 s2 => ?_
  obtain ⟨u1, u2, -⟩ := two_parts hb hk (hb'.trans (s1.trans s2).ext) r1
  have c3 : (Call.equal k d.start1 (sz bs3 k - d.end1) (N + k) d.start2 : Call w).Pre bs3 := ⟨u1, u2⟩
  exact alg_cons _ rfl (by trivial) c3 (fine_call trivial trivial c3 trivial trivial (whole_one u1.1)) fun bs4 _ => alg_nil _ _

/-- C81: the `SwapRanges` test passes on every machine, whatever it draws. -/
theorem C81_swap_ranges (hw : 0 < w) (S : ShiftSem w) (P : Policy) (h : Heap w) (vs : List BV) (bs : List (List Bool)) (e : EnvOk h vs bs) (N : Nat)
    (ds : List Draw2) (hb : TwoRanges N bs) (hl : ds.length ≤ N) (hd : DrawsIn (fun n d => d.InRange w n) bs ds) :
    Passes S P (loop (swapRangesIter N) 0 ds) h vs bs := by
  refine passes_of_fine hw S P e ((two_loop hl _ hd Fine _ (fun _ _ => True ∧ True) fun k bs' hk hb' d r1 => ?_).2 (by simp))
  obtain ⟨p1, p2, -⟩ := two_parts hb hk hb' r1
  have c1 : (Call.swapRanges k d.start1 (sz bs' k - d.end1) (N + k) d.start2 : Call w).Pre bs' := ⟨p1, p2, fun h => by omega⟩
  exact alg_cons _ rfl (by trivial) c1 (fine_call trivial trivial c1 trivial trivial (whole_one p2.1)) fun bs2 _ => alg_nil _ _

/-- C81: the `TransformUnary` test passes on every machine, whatever it draws. -/
theorem C81_transform_unary (hw : 0 < w) (S : ShiftSem w) (P : Policy) (h : Heap w) (vs : List BV) (bs : List (List Bool)) (e : EnvOk h vs bs)
    (N : Nat) (ds : List Draw2) (hb : TwoRanges N bs) (hl : ds.length ≤ N) (hd : DrawsIn (fun n d => d.InRange w n) bs ds) :
    Passes S P (loop (transformUnaryIter N) 0 ds) h vs bs := by
  refine passes_of_fine hw S P e ((two_loop hl _ hd Fine _ (fun _ _ => True ∧ True) fun k bs' hk hb' d r1 => ?_).2 (by simp))
  obtain ⟨p1, p2, -⟩ := two_parts hb hk hb' r1
  have c1 : (Call.transform (fun x => ~~~x) (fun b => !b) k d.start1 (sz bs' k - d.end1) (N + k) d.start2 : Call w).Pre bs' :=
    ⟨fun x i hi => by simp [hi], p1, p2, fun h => by omega⟩
  exact alg_cons _ rfl (by trivial) c1 (fine_call trivial trivial c1 trivial trivial (whole_one p2.1)) fun bs2 _ => alg_nil _ _

/-- C81: the `TransformBinary` test passes on every machine, whatever it draws. -/
theorem C81_transform_binary (hw : 0 < w) (S : ShiftSem w) (P : Policy) (h : Heap w) (vs : List BV) (bs : List (List Bool)) (e : EnvOk h vs bs)
    (N : Nat) (ds : List Draw2) (hb : TwoRanges N bs) (hl : ds.length ≤ N) (hd : DrawsIn (fun n d => d.InRange w n) bs ds) :
    Passes S P (loop (transformBinaryIter N) 0 ds) h vs bs := by
  refine passes_of_fine hw S P e ((two_loop hl _ hd Fine _ (fun _ _ => True ∧ True) fun k bs' hk hb' d r1 => ?_).2 (by simp))
  obtain ⟨p1, p2, -⟩ := two_parts hb hk hb' r1
  have c1 : (Call.transform2 (fun x y => x &&& y) (fun a b => a && b) k d.start1 (sz bs' k - d.end1) (N + k) d.start2 (N + k) d.start2 : Call w).Pre bs' :=
    ⟨fun x y i hi => by simp, p1, p2, p2, fun h => by omega, fun _ => .inl (Nat.le_refl _)⟩
  exact alg_cons _ rfl (by trivial) c1 (fine_call trivial trivial c1 trivial trivial (whole_one p2.1)) fun bs2 _ => alg_nil _ _

/-- The two calls of a round of the `CopyBackward` test. -/
theorem copyBackward_round {N k : Nat} {bs bs' : List (List Bool)} (hb : TwoRanges N bs) (hk : k < N) (hb' : Ext bs bs') {d : Draw2}
    (r1 : d.InRange w (sz bs k)) (r2 : d.start1 ≤ d.again) (r3 : d.again ≤ d.start1 + d.end1) :
    Always (fun bs s => s.Valid bs) (copyBackwardIter N k d : Prog w) bs' ∧
      (Always (fun bs s => s.act.Calm bs) (copyBackwardIter N k d : Prog w) bs' ↔ ¬ CopyBackwardBad w (sz bs k) d) ∧
      Same bs' (after (copyBackwardIter N k d : Prog w) bs') := by
  obtain ⟨p1, p2, e1⟩ := two_parts hb hk hb' r1
  have c1 : (Call.copyBackward k d.start1 (sz bs' k - d.end1) (N + k) d.start2 : Call w).Pre bs' := ⟨p1, p2, fun h => by omega⟩
  have c2 : ∀ bs2, Same bs' bs2 → (Call.copyBackward k d.start1 (sz bs2 k - d.end1) k d.again : Call w).Pre bs2 := by
    intro bs2 s1
    obtain ⟨q1, -, e2⟩ := two_parts hb hk (hb'.trans s1.ext) r1
    refine ⟨q1, ⟨q1.1, Nat.le_add_right _ _, ?_⟩, fun _ => .inl r2⟩
    obtain ⟨d1, d2, d3, d4⟩ := r1
    have := (hb.size k hk).2
    rw [e2]
    unfold sz at *
    omega
  have v := alg_cons (fun bs s => Step.Valid bs s) (f := fun bs => ⟨.call (.copyBackward k d.start1 (sz bs k - d.end1) (N + k) d.start2), true, [.all (N + k)]⟩)
    (fs := [fun bs => ⟨.call (.copyBackward k d.start1 (sz bs k - d.end1) k d.again), true, [.all k]⟩])
    rfl (by trivial) c1 (C1 := True) (C2 := True ∧ True)
    (iff_true_intro (valid_call _ _ _ _ trivial trivial c1 trivial (whole_one p2.1))) fun bs2 s1 =>
      alg_cons _ rfl (by trivial) (c2 bs2 s1) (iff_true_intro (valid_call _ _ _ _ trivial trivial (c2 bs2 s1) trivial (whole_one (c2 bs2 s1).1.1)))
        fun bs3 _ => alg_nil _ _
  refine ⟨v.1.2 ⟨trivial, trivial, trivial⟩, ?_, v.2⟩
  have cc := alg_cons (fun bs s => Act.Calm bs s.act) (f := fun bs => ⟨.call (.copyBackward k d.start1 (sz bs k - d.end1) (N + k) d.start2), true, [.all (N + k)]⟩)
    (fs := [fun bs => ⟨.call (.copyBackward k d.start1 (sz bs k - d.end1) k d.again), true, [.all k]⟩])
    rfl (by trivial) c1 Iff.rfl fun bs2 s1 =>
      alg_cons _ rfl (by trivial) (c2 bs2 s1) (C1 := (Act.call (.copyBackward k d.start1 (sz bs k - d.end1) k d.again) : Act w).Calm bs')
        (C2 := True) (by dsimp only; rw [s1.2 k, e1]; exact Iff.rfl) fun bs3 _ => alg_nil _ _
  refine cc.1.trans ?_
  rw [e1]
  unfold CopyBackwardBad
  show ¬ _ ∧ ¬ _ ∧ True ↔ _
  tauto

/-- C81: the `CopyBackward` test passes where shifts by the whole width of a word are defined; for words that are not promoted it passes
exactly if no round is bad, and is undefined otherwise. -/
theorem C81_copy_backward (hw : 0 < w) (P : Policy) (h : Heap w) (vs : List BV) (bs : List (List Bool)) (e : EnvOk h vs bs) (N : Nat)
    (ds : List Draw2) (hb : TwoRanges N bs) (hl : ds.length ≤ N)
    (hd : DrawsIn (fun n d => d.InRange w n ∧ d.start1 ≤ d.again ∧ d.again ≤ d.start1 + d.end1) bs ds) :
    (∀ S : ShiftSem w, S.FullShiftOk → Passes S P (loop (copyBackwardIter N) 0 ds) h vs bs) ∧
    ((∀ k (hk : k < ds.length), ¬ CopyBackwardBad w (sz bs k) ds[k]) → Passes (Unpromoted w) P (loop (copyBackwardIter N) 0 ds) h vs bs) ∧
    ((∃ k, ∃ hk : k < ds.length, CopyBackwardBad w (sz bs k) ds[k]) →
      run (Unpromoted w) P (loop (copyBackwardIter N) 0 ds) vs bs h = .error (.ub .overshift)) := by
  have hv : Valid (loop (copyBackwardIter N) 0 ds : Prog w) bs :=
    (two_loop hl _ hd _ _ (fun _ _ => True) fun k bs' hk hb' d ⟨r1, r2, r3⟩ =>
      have r := copyBackward_round hb hk hb' r1 r2 r3
      ⟨iff_true_intro r.1, r.2.2⟩).2 (by simp)
  have hc : Calm (loop (copyBackwardIter N) 0 ds : Prog w) bs ↔ _ :=
    two_loop hl _ hd _ _ (fun n d => ¬ CopyBackwardBad w n d) fun k bs' hk hb' d ⟨r1, r2, r3⟩ => (copyBackward_round hb hk hb' r1 r2 r3).2
  refine ⟨fun S hS => ?_, fun hx => ?_, ?_⟩
  · obtain ⟨vs', h', e1, -⟩ := C81_passes hw S P _ h vs bs e hv (.inr hS)
    exact ⟨vs', _, h', e1⟩
  · exact (C81_unpromoted hw P _ h vs bs e hv).1.2 (hc.2 hx)
  · rintro ⟨k, hk, hx⟩
    exact (C81_unpromoted hw P _ h vs bs e hv).2 fun hcalm => hc.1 hcalm k hk hx

/-- C81: the `CopyBackward` test can draw a bad round whenever a vector has two words or more: `start1 = start2 = end1 = 0`. -/
theorem C81_copy_backward_reached (n : Nat) (hw : 0 < w) (hn : 2 * w ≤ n) :
    Draw2.InRange w n ⟨0, 0, 0, 0⟩ ∧ CopyBackwardBad w n ⟨0, 0, 0, 0⟩ := by
  refine ⟨⟨Nat.zero_le _, Nat.zero_le _, Nat.zero_le _, Nat.zero_le _⟩, Nat.zero_mod _, ?_, .inl ?_⟩
  · show 0 / w + 2 ≤ (n - 0) / w
    rw [Nat.zero_div, Nat.sub_zero, Nat.zero_add]
    exact (Nat.le_div_iff_mul_le hw).2 hn
  · simp

/-! ### Tests on one range -/

/-- Every round is judged by the draw and the size of its vector. -/
theorem one_loop {D : Type} {bs : List (List Bool)} {ds : List D} (hl : ds.length ≤ bs.length) (R : Nat → D → Prop) (hd : DrawsIn R bs ds)
    (p : List (List Bool) → Step w → Prop) (iter : Nat → D → Prog w) (C : Nat → D → Prop)
    (step : ∀ k bs', k < bs'.length → sz bs' k = sz bs k → ∀ d, R (sz bs k) d →
      (Always p (iter k d) bs' ↔ C (sz bs k) d) ∧ Ext bs' (after (iter k d) bs')) :
    Always p (loop iter 0 ds) bs ↔ ∀ k (hk : k < ds.length), C (sz bs k) ds[k] := by
  have := (loop_iff p iter (fun k d => C (sz bs k) d) bs ds 0 (fun k hk bs' hb' => ?_) bs (.refl _)).1
  · simpa using this
  · rw [Nat.zero_add]
    exact step k bs' (by have := hb'.1; omega) (hb'.2 k (by omega)) _ (hd k hk)

/-- C81: the `Fill` test passes on every machine, whatever it draws. -/
theorem C81_fill (hw : 0 < w) (S : ShiftSem w) (P : Policy) (h : Heap w) (vs : List BV) (bs : List (List Bool)) (e : EnvOk h vs bs)
    (ds : List ((Nat × Nat) × (Nat × Nat))) (hl : ds.length ≤ bs.length) (hd : DrawsIn (FillRange w) bs ds) :
    Passes S P (loop fillIter 0 ds) h vs bs := by
  refine passes_of_fine hw S P e ((one_loop hl _ hd Fine _ (fun _ _ => True ∧ True ∧ True ∧ True) fun k bs' hk hz d ⟨⟨r1, r2⟩, r3, r4⟩ => ?_).2 (by simp))
  refine And.imp_right Same.ext ?_
  have hk1 : (Call.size k : Call w).Pre bs' := hk
  refine alg_cons _ rfl (by trivial) hk1 (fine_call trivial trivial hk1 trivial trivial whole_nil) fun bs2 s1 => ?_
  have l2 := s1.1
  have z2 := s1.2 k
  have c1 : (Call.fill k d.1.1 (sz bs2 k - d.1.2) true : Call w).Pre bs2 := by
    unfold sz at *
    exact ⟨by omega, by omega, by omega⟩
  refine alg_cons _ rfl (by trivial) c1 (fine_call trivial trivial c1 trivial trivial (whole_one c1.1)) fun bs3 s2 => ?_
  have l3 := s2.1
  have z3 := s2.2 k
  have c2 : (Call.fill k d.2.1 (sz bs3 k - d.2.2) false : Call w).Pre bs3 := by
    unfold sz at *
    exact ⟨by omega, by omega, by omega⟩
  exact alg_cons _ rfl (by trivial) c2 (fine_call trivial trivial c2 trivial trivial (whole_one c2.1)) fun bs4 _ => alg_nil _ _

/-- The copy is the last vector. -/
theorem copy_last (bs : List (List Bool)) (idx : Nat) (bs' : List (List Bool)) (hs : Same (bs ++ [at' bs idx]) bs') :
    bs'.length - 1 = bs.length ∧ bs.length < bs'.length ∧ sz bs' bs.length = sz bs idx := by
  obtain ⟨h1, h2⟩ := hs
  rw [List.length_append, List.length_singleton] at h1
  refine ⟨by omega, by omega, ?_⟩
  rw [h2]
  unfold sz
  rw [show at' (bs ++ [at' bs idx]) bs.length = at' bs idx by unfold Op.at'; simp]

theorem copy_valid (bs : List (List Bool)) (s : Step w)
    (h : ∃ op : Op w, s = ⟨.call (.vec op), false, []⟩ ∧ (Act.call (.vec op)).Plain ∧ op.Pre bs ∧ op.SizeLim bs) : s.Valid bs := by
  obtain ⟨op, rfl, h1, h2, h3⟩ := h
  exact ⟨h1, h2, h3, whole_nil⟩

theorem copy_calm (bs : List (List Bool)) (s : Step w)
    (h : ∃ op : Op w, s = ⟨.call (.vec op), false, []⟩ ∧ (Act.call (.vec op)).Plain ∧ op.Pre bs ∧ op.SizeLim bs) : s.act.Calm bs := by
  obtain ⟨op, rfl, h1, h2, h3⟩ := h
  trivial

/-- C81: the `Count` test passes on every machine, whatever it draws. -/
theorem C81_count (hw : 0 < w) (S : ShiftSem w) (P : Policy) (h : Heap w) (vs : List BV) (bs : List (List Bool)) (e : EnvOk h vs bs)
    (ds : List (List Nat)) (hl : ds.length ≤ bs.length) (hd : DrawsIn (fun n d => 1 ≤ n ∧ StartRange n d) bs ds) :
    Passes S P (loop countIter 0 ds) h vs bs := by
  refine passes_of_fine hw S P e ((one_loop hl _ hd Fine _ (fun _ _ => True) fun k bs' hk hz d ⟨r1, r2⟩ => ?_).2 (by simp))
  refine onCopy_iff Fine _ True bs' k hk (fun b s hx => ⟨copy_valid b s hx, copy_calm b s hx⟩) ?_
  refine And.imp_left iff_true_intro (steps_always Fine _ (bs' ++ [at' bs' k]) d (fun start hs bs2 s2 => ?_) _ (.refl _))
  have r3 := r2 start hs
  have key : ∀ bs3, Same (bs' ++ [at' bs' k]) bs3 → ∀ x, (Call.count (bs3.length - 1) start (sz bs3 (bs3.length - 1)) x : Call w).Pre bs3 ∧
      (Act.call (Call.count (bs3.length - 1) start (sz bs3 (bs3.length - 1)) x) : Act w).Size bs3 := by
    intro bs3 s3 x
    obtain ⟨c1, c2, c3⟩ := copy_last bs' k bs3 s3
    rw [c1]
    refine ⟨⟨c2, ?_, Nat.le_refl _⟩, .inl ?_⟩
    · omega
    · show start < sz bs3 bs'.length
      omega
  refine And.imp_left (fun hx => hx.2 (by simp)) (alg_cons _ rfl (by trivial) (key bs2 s2 true).1 (C2 := True ∧ True)
    (fine_call trivial trivial (key bs2 s2 true).1 (key bs2 s2 true).2 trivial whole_nil) fun bs3 s3 => ?_)
  have := key bs3 (s2.trans s3) false
  exact alg_cons _ rfl (by trivial) this.1 (fine_call trivial trivial this.1 this.2 trivial whole_nil) fun bs4 _ => alg_nil _ _

/-- C81: the `Find` test passes on every machine, whatever it draws. -/
theorem C81_find (hw : 0 < w) (S : ShiftSem w) (P : Policy) (h : Heap w) (vs : List BV) (bs : List (List Bool)) (e : EnvOk h vs bs)
    (ds : List (List Nat)) (hl : ds.length ≤ bs.length) (hd : DrawsIn (fun n d => 1 ≤ n ∧ StartRange n d) bs ds) :
    Passes S P (loop findIter 0 ds) h vs bs := by
  refine passes_of_fine hw S P e ((one_loop hl _ hd Fine _ (fun _ _ => True) fun k bs' hk hz d ⟨r1, r2⟩ => ?_).2 (by simp))
  refine onCopy_iff Fine _ True bs' k hk (fun b s hx => ⟨copy_valid b s hx, copy_calm b s hx⟩) ?_
  refine And.imp_left iff_true_intro (steps_always Fine _ (bs' ++ [at' bs' k]) d (fun start hs bs2 s2 => ?_) _ (.refl _))
  have r3 := r2 start hs
  have key : ∀ bs3, Same (bs' ++ [at' bs' k]) bs3 → ∀ x, (Call.find (bs3.length - 1) start (sz bs3 (bs3.length - 1)) x : Call w).Pre bs3 := by
    intro bs3 s3 x
    obtain ⟨c1, c2, c3⟩ := copy_last bs' k bs3 s3
    rw [c1]
    exact ⟨c2, by omega, Nat.le_refl _⟩
  refine And.imp_left (fun hx => hx.2 (by simp)) (alg_cons _ rfl (by trivial) (key bs2 s2 true) (C2 := True ∧ True)
    (fine_call trivial trivial (key bs2 s2 true) trivial trivial whole_nil) fun bs3 s3 => ?_)
  have := key bs3 (s2.trans s3) false
  exact alg_cons _ rfl (by trivial) this (fine_call trivial trivial this trivial trivial whole_nil) fun bs4 _ => alg_nil _ _

/-- C81: the `Rotate` test passes on every machine, whatever it draws. It never draws `middle = end`, where `rotate` goes wrong (C20). -/
theorem C81_rotate (hw : 0 < w) (S : ShiftSem w) (P : Policy) (h : Heap w) (vs : List BV) (bs : List (List Bool)) (e : EnvOk h vs bs)
    (ds : List (List (Nat × Nat))) (hl : ds.length ≤ bs.length) (hd : DrawsIn (fun n d => 1 ≤ n ∧ n ≤ 2 ^ 32 ∧ RotateRange n d) bs ds) :
    Passes S P (loop rotateIter 0 ds) h vs bs := by
  refine passes_of_fine hw S P e ((one_loop hl _ hd Fine _ (fun _ _ => True) fun k bs' hk hz d ⟨r1, r2, r3⟩ => ?_).2 (by simp))
  unfold rotateIter
  rw [List.map_eq_flatMap]
  refine And.imp (fun hx => iff_true_intro hx) Same.ext (steps_always Fine _ bs' d (fun x hx bs2 s2 => ?_) bs' (.refl _))
  obtain ⟨q1, q2, q3⟩ := r3 x hx
  have l2 := s2.1
  have z2 := s2.2 k
  have c1 : (Call.rotate k x.1 x.2 (sz bs2 k) : Call w).Pre bs2 := by
    unfold sz at *
    exact ⟨⟨by omega, by omega, Nat.le_refl _⟩, by omega, by omega⟩
  refine And.imp_left (fun hx => hx.2 (by simp)) (alg_cons _ rfl (by trivial) c1 (C2 := True)
    (fine_call trivial trivial c1 ⟨by omega, RotFits.of_len ?_⟩ trivial (whole_one c1.1.1)) fun bs3 s3 => alg_nil _ _)
  have : (2 ^ 32 + 1 : Int) * 1 ≤ (2 ^ 32 + 1) * ((w : Int) + 1) := Int.mul_le_mul_of_nonneg_left (by omega) (by decide)
  have : (sz bs2 k : Int) ≤ 2 ^ 32 := by
    have : sz bs2 k ≤ 2 ^ 32 := by omega
    exact_mod_cast this
  omega

/-- C81: the `Reverse` test passes where shifts by the whole width of a word are defined. For words that are not promoted it passes exactly if no
`start` is drawn inside the first word such that the vector ends with that word, and is undefined otherwise. -/
theorem C81_reverse (hw : 0 < w) (P : Policy) (h : Heap w) (vs : List BV) (bs : List (List Bool)) (e : EnvOk h vs bs)
    (ds : List (List Nat)) (hl : ds.length ≤ bs.length) (hd : DrawsIn (fun n d => 1 ≤ n ∧ StartRange n d) bs ds) :
    (∀ S : ShiftSem w, S.FullShiftOk → Passes S P (loop reverseIter 0 ds) h vs bs) ∧
    ((∀ k (hk : k < ds.length), ∀ start ∈ ds[k], ¬ (start % w ≠ 0 ∧ sz bs k = (start / w + 1) * w)) →
      Passes (Unpromoted w) P (loop reverseIter 0 ds) h vs bs) ∧
    ((∃ k, ∃ hk : k < ds.length, ∃ start ∈ ds[k], start % w ≠ 0 ∧ sz bs k = (start / w + 1) * w) →
      run (Unpromoted w) P (loop reverseIter 0 ds) vs bs h = .error (.ub .overshift)) := by
  have key : ∀ k bs' bs3, Same (bs' ++ [at' bs' k]) bs3 → sz bs' k = sz bs k → 1 ≤ sz bs k → ∀ start, start ≤ min (sz bs k - 1) 16 →
      (Call.reverse (bs3.length - 1) start (sz bs3 (bs3.length - 1)) : Call w).Pre bs3 ∧ sz bs3 (bs3.length - 1) = sz bs k := by
    intro k bs' bs3 s3 hz h1 start hs
    obtain ⟨c1, c2, c3⟩ := copy_last bs' k bs3 s3
    rw [c1]
    exact ⟨⟨c2, by omega, Nat.le_refl _⟩, by omega⟩
  have hv : Valid (loop reverseIter 0 ds : Prog w) bs := by
    refine (one_loop hl _ hd (fun bs s => s.Valid bs) _ (fun _ _ => True) fun k bs' hk hz d ⟨r1, r2⟩ => ?_).2 (by simp)
    refine onCopy_iff _ _ True bs' k hk copy_valid ?_
    rw [List.map_eq_flatMap]
    refine And.imp_left iff_true_intro (steps_always _ _ (bs' ++ [at' bs' k]) d (fun start hs bs2 s2 => ?_) _ (.refl _))
    obtain ⟨c1, -⟩ := key k bs' bs2 s2 hz r1 start (r2 start hs)
    exact And.imp_left (fun hx => hx.2 (by simp)) (alg_cons _ rfl (by trivial) c1 (C2 := True)
      (iff_true_intro (valid_call _ _ _ _ trivial trivial c1 trivial (whole_one c1.1))) fun bs3 s3 => alg_nil _ _)
  have hc : Calm (loop reverseIter 0 ds : Prog w) bs ↔
      ∀ k (hk : k < ds.length), ∀ start ∈ ds[k], ¬ (start % w ≠ 0 ∧ sz bs k = (start / w + 1) * w) := by
    refine one_loop hl _ hd (fun bs s => s.act.Calm bs) _ (fun n d => ∀ start ∈ d, ¬ (start % w ≠ 0 ∧ n = (start / w + 1) * w))
      fun k bs' hk hz d ⟨r1, r2⟩ => ?_
    refine onCopy_iff _ _ _ bs' k hk copy_calm ?_
    rw [List.map_eq_flatMap]
    refine steps_iff _ _ _ (bs' ++ [at' bs' k]) d (fun start hs bs2 s2 => ?_) _ (.refl _)
    obtain ⟨c1, c2⟩ := key k bs' bs2 s2 hz r1 start (r2 start hs)
    refine And.imp_left (fun hx => hx.trans (by simp)) (alg_cons _ rfl (by trivial) c1 (C2 := True)
      (C1 := ¬ (start % w ≠ 0 ∧ sz bs k = (start / w + 1) * w)) ?_ fun bs3 s3 => alg_nil _ _)
    dsimp only
    rw [c2]
    exact Iff.rfl
  refine ⟨fun S hS => ?_, fun hx => ?_, ?_⟩
  · obtain ⟨vs', h', e1, -⟩ := C81_passes hw S P _ h vs bs e hv (.inr hS)
    exact ⟨vs', _, h', e1⟩
  · exact (C81_unpromoted hw P _ h vs bs e hv).1.2 (hc.2 hx)
  · rintro ⟨k, hk, start, hs, hx⟩
    exact (C81_unpromoted hw P _ h vs bs e hv).2 fun hcalm => hc.1 hcalm k hk start hs hx

/-- C81: a vector of exactly one 32- or 64-bit word and a draw other than 0 make the `Reverse` test undefined. -/
theorem C81_reverse_word (hw : 16 < w) (P : Policy) (h : Heap w) (vs : List BV) (bs : List (List Bool)) (e : EnvOk h vs bs)
    (ds : List (List Nat)) (hl : ds.length ≤ bs.length) (hd : DrawsIn (fun n d => 1 ≤ n ∧ StartRange n d) bs ds)
    (k : Nat) (hk : k < ds.length) (hz : sz bs k = w) (start : Nat) (hs : start ∈ ds[k]) (h0 : start ≠ 0) :
    run (Unpromoted w) P (loop reverseIter 0 ds) vs bs h = .error (.ub .overshift) := by
  refine (C81_reverse (by omega) P h vs bs e ds hl hd).2.2 ⟨k, hk, start, hs, ?_⟩
  have := (hd k hk).2 start hs
  have hlt : start < w := by omega
  rw [Nat.mod_eq_of_lt hlt, Nat.div_eq_of_lt hlt, hz]
  exact ⟨h0, by omega⟩

/-! ### The shift tests -/

theorem shift_std_left {ls bs : List (List Bool)} {i a n : Nat} (fr : From i ls bs) (hi : i < bs.length) (ha : a ≤ sz bs i) :
    let c : Call w := .shiftLeft i a (sz bs i) n
    ∀ ls' x, c.Spec ls ls' x → (stdCall bs c).2 = x ∧ From (i + 1) ls' (stdCall bs c).1 ∧ Same bs (stdCall bs c).1 ∧
      ∃ p : Nat, x = .pos (p : Int) ∧ p ≤ (at' ls' i).length ∧
        ((Check.before i = .before i ∧ (at' ls' i).take p = (at' (stdCall bs c).1 i).take p) ∨
          (Check.before i = .after i ∧ (at' ls' i).drop p = (at' (stdCall bs c).1 i).drop p)) := by
  intro c ls' x sp
  have hat := fr.rest i (Nat.le_refl _)
  have hll := fr.len
  have hz : sz bs i = (at' bs i).length := rfl
  have same : Same bs (stdCall bs c).1 := same_std bs c trivial ⟨hi, ha, Nat.le_refl _⟩
  have next : From (i + 1) ls bs := ⟨fr.len, fun k hk => fr.rest k (by omega)⟩
  change (if _ then _ else _) at sp
  have e1 : stdCall bs c = if n = 0 then (bs, .pos (sz bs i : Int)) else if sz bs i ≤ a + n then (bs, .pos (a : Int))
    else (bs.set i (splice (at' bs i) a (slice (at' bs i) (a + n) (sz bs i))), .pos ((sz bs i - n : Nat) : Int)) := rfl
  rw [e1] at same ⊢
  by_cases h1 : 0 < n ∧ a + n < sz bs i
  · rw [if_pos h1] at sp
    obtain ⟨rfl, rfl⟩ := sp
    rw [if_neg (c := n = 0) (by omega), if_neg (c := sz bs i ≤ a + n) (by omega)] at same ⊢
    refine ⟨rfl, ⟨by simp [fr.len], fun k hk => ?_⟩, same, sz bs i - n, rfl, ?_, .inl ⟨rfl, ?_⟩⟩
    · rw [at'_set _ _ _ _ (by omega), at'_set _ _ _ _ hi, if_neg (by omega), if_neg (by omega)]
      exact fr.rest k (by omega)
    · have := vacatedL_length (w := w) (at' ls i) (a := a) (b := sz bs i) (n := n) (by omega) (by rw [hat, hz])
      rw [at'_set _ _ _ _ (by omega), if_pos rfl, splice_length _ _ (by rw [List.length_append, slice_length _ (by rw [hat, hz]), this, hat]; omega), hat]
      omega
    · rw [at'_set _ _ _ _ (by omega), if_pos rfl, at'_set _ _ _ _ hi, if_pos rfl, hat]
      exact splice_take _ _ _ (by omega) (by rw [slice_length _ (by omega)]; omega)
  · rw [if_neg h1] at sp
    obtain ⟨rfl, rfl⟩ := sp
    by_cases h0 : n = 0
    · rw [if_pos (c := n = 0) h0] at same ⊢
      refine ⟨by rw [if_pos h0], next, same, sz bs i, by rw [if_pos h0], by rw [hat]; exact Nat.le_refl _, .inl ⟨rfl, by rw [hat]⟩⟩
    · rw [if_neg (c := n = 0) h0, if_pos (c := sz bs i ≤ a + n) (by omega)] at same ⊢
      refine ⟨by rw [if_neg h0], next, same, a, by rw [if_neg h0], by rw [hat]; exact ha, .inl ⟨rfl, by rw [hat]⟩⟩

theorem shift_std_right (hw : 0 < w) {ls bs : List (List Bool)} {i a n : Nat} (fr : From i ls bs) (hi : i < bs.length) (ha : a ≤ sz bs i) :
    let c : Call w := .shiftRight i a (sz bs i) n
    ∀ ls' x, c.Spec ls ls' x → (stdCall bs c).2 = x ∧ From (i + 1) ls' (stdCall bs c).1 ∧ Same bs (stdCall bs c).1 ∧
      ∃ p : Nat, x = .pos (p : Int) ∧ p ≤ (at' ls' i).length ∧
        ((Check.after i = .before i ∧ (at' ls' i).take p = (at' (stdCall bs c).1 i).take p) ∨
          (Check.after i = .after i ∧ (at' ls' i).drop p = (at' (stdCall bs c).1 i).drop p)) := by
  intro c ls' x sp
  have hat := fr.rest i (Nat.le_refl _)
  have hll := fr.len
  have hz : sz bs i = (at' bs i).length := rfl
  have same : Same bs (stdCall bs c).1 := same_std bs c trivial ⟨hi, ha, Nat.le_refl _⟩
  have next : From (i + 1) ls bs := ⟨fr.len, fun k hk => fr.rest k (by omega)⟩
  change (if _ then _ else _) at sp
  have e1 : stdCall bs c = if n = 0 then (bs, .pos (a : Int)) else if sz bs i ≤ a + n then (bs, .pos (sz bs i : Int))
    else (bs.set i (splice (at' bs i) (a + n) (slice (at' bs i) a (sz bs i - n))), .pos ((a + n : Nat) : Int)) := rfl
  rw [e1] at same ⊢
  by_cases h1 : 0 < n ∧ a + n < sz bs i
  · rw [if_pos h1] at sp
    obtain ⟨rfl, rfl⟩ := sp
    rw [if_neg (c := n = 0) (by omega), if_neg (c := sz bs i ≤ a + n) (by omega)] at same ⊢
    have hv := vacatedR_length (w := w) hw (at' ls i) (a := a) (b := sz bs i) (n := n) (by omega) (by rw [hat]; omega)
    refine ⟨rfl, ⟨by simp [fr.len], fun k hk => ?_⟩, same, a + n, rfl, ?_, .inr ⟨rfl, ?_⟩⟩
    · rw [at'_set _ _ _ _ (by omega), at'_set _ _ _ _ hi, if_neg (by omega), if_neg (by omega)]
      exact fr.rest k (by omega)
    · rw [at'_set _ _ _ _ (by omega), if_pos rfl, splice_length _ _ (by rw [List.length_append, slice_length _ (by rw [hat]; omega), hv, hat]; omega), hat]
      omega
    · rw [at'_set _ _ _ _ (by omega), if_pos rfl, at'_set _ _ _ _ hi, if_pos rfl, ← hat]
      exact splice_drop _ _ _ (by rw [hv]) (by rw [hat]; omega)
  · rw [if_neg h1] at sp
    obtain ⟨rfl, rfl⟩ := sp
    by_cases h0 : n = 0
    · rw [if_pos (c := n = 0) h0] at same ⊢
      refine ⟨by rw [if_pos h0], next, same, a, by rw [if_pos h0], by rw [hat]; exact ha, .inr ⟨rfl, by rw [hat]⟩⟩
    · rw [if_neg (c := n = 0) h0, if_pos (c := sz bs i ≤ a + n) (by omega)] at same ⊢
      refine ⟨by rw [if_neg h0], next, same, sz bs i, by rw [if_neg h0], by rw [hat]; exact Nat.le_refl _, .inr ⟨rfl, by rw [hat]⟩⟩

theorem shiftLeft_good (hw : 0 < w) (S : ShiftSem w) (P : Policy) (i : Nat) (d : Nat × Nat) (h : Heap w) (vs : List BV) (ls bs : List (List Bool))
    (e : EnvOk h vs ls) (fr : From i ls bs) (hi : i < bs.length) (hr : ShiftRange w (sz bs i) d) (hg : ¬ ShiftBad w (sz bs i) d ∨ S.FullShiftOk) :
    ∃ vs' h' ls' bs', run S P (shiftLeftIter i d) vs bs h = .ok (((vs', bs'), true), h') ∧ EnvOk h' vs' ls' ∧ From (i + 1) ls' bs' ∧ Same bs bs' := by
  have ha : d.1 ≤ sz bs i := by have := hr.1; omega
  have hat := fr.rest i (Nat.le_refl _)
  obtain ⟨vs', h', ls', r⟩ := shift_round hw S P e fr hi (.shiftLeft i d.1 (sz bs i) d.2) (.before i)
    ⟨by rw [fr.len]; exact hi, ha, by rw [hat]; exact Nat.le_refl _⟩ hg (shift_std_left fr hi ha)
  exact ⟨vs', h', ls', _, r⟩

theorem shiftRight_good (hw : 0 < w) (S : ShiftSem w) (P : Policy) (i : Nat) (d : Nat × Nat) (h : Heap w) (vs : List BV) (ls bs : List (List Bool))
    (e : EnvOk h vs ls) (fr : From i ls bs) (hi : i < bs.length) (hr : ShiftRange w (sz bs i) d) (hg : ¬ ShiftBad w (sz bs i) d ∨ S.FullShiftOk) :
    ∃ vs' h' ls' bs', run S P (shiftRightIter i d) vs bs h = .ok (((vs', bs'), true), h') ∧ EnvOk h' vs' ls' ∧ From (i + 1) ls' bs' ∧ Same bs bs' := by
  have ha : d.1 ≤ sz bs i := by have := hr.1; omega
  have hat := fr.rest i (Nat.le_refl _)
  obtain ⟨vs', h', ls', r⟩ := shift_round hw S P e fr hi (.shiftRight i d.1 (sz bs i) d.2) (.after i)
    ⟨by rw [fr.len]; exact hi, ha, by rw [hat]; exact Nat.le_refl _⟩ hg (shift_std_right hw fr hi ha)
  exact ⟨vs', h', ls', _, r⟩

theorem size_then {S : ShiftSem w} {P : Policy} {vs : List BV} {bs : List (List Bool)} {i : Nat} {h : Heap w} {v : BV} {x : Stop} (f : List (List Bool) → Step w)
    (hv : vs[i]? = some v) (hf : (f bs).act.exec S P vs h = .error x) :
    run S P [fun _ => (⟨.call (.size i), true, []⟩ : Step w), f] vs bs h = .error x := by
  have e0 : (Act.call (.size i) : Act w).exec S P vs h = .ok ((vs, .num (v.size : Int)), h) := by
    show withVec vs i _ h = _
    unfold withVec
    rw [hv]
    rfl
  unfold run
  dsimp only
  rw [runV_bind_ok e0]
  have n1 : ∀ (vs : List BV) (bs : List (List Bool)) (a b : Ans) (h : Heap w), runChecks S vs bs a b [] h = .ok (true, h) := fun _ _ _ _ _ => rfl
  rw [runV_bind_ok (n1 _ _ _ _ _)]
  have e1 : run S P [f] vs bs h = .error x := by
    unfold run
    rw [Obj.runV_bind_error hf]
  exact Obj.runV_bind_error e1

theorem shiftLeft_bad (hw : 0 < w) (P : Policy) (i : Nat) (d : Nat × Nat) (h : Heap w) (vs : List BV) (ls bs : List (List Bool))
    (e : EnvOk h vs ls) (fr : From i ls bs) (hi : i < bs.length) (hr : ShiftRange w (sz bs i) d) (hg : ShiftBad w (sz bs i) d) :
    run (Unpromoted w) P (shiftLeftIter i d) vs bs h = .error (.ub .overshift) := by
  have hat := fr.rest i (Nat.le_refl _)
  have ha : d.1 ≤ sz bs i := by have := hr.1; omega
  obtain ⟨c1, c2, c3, c4⟩ := hg
  have pos := fun (v : BV) (d : Nat) => IsPos.begin_add hw v d
  have part : Call.Part ls i d.1 (sz bs i) := ⟨by rw [fr.len]; exact hi, ha, by rw [hat]; exact Nat.le_refl _⟩
  obtain ⟨v, hv, rv, hs⟩ := e.source hw part
  refine size_then _ hv (failsV_withVec hv (failsV_bind_left (failsV_onMem ?_)))
  exact (C18_shift_left_exact h.mem _ _ (d.2 : Int) hs.range).2
    ⟨(pos v d.1).pos_zero.2 c1, by rw [hs.lenEq, slice_length _ part.2.2]; omega, by omega, by omega⟩

theorem shiftRight_bad (hw : 0 < w) (P : Policy) (i : Nat) (d : Nat × Nat) (h : Heap w) (vs : List BV) (ls bs : List (List Bool))
    (e : EnvOk h vs ls) (fr : From i ls bs) (hi : i < bs.length) (hr : ShiftRange w (sz bs i) d) (hg : ShiftBad w (sz bs i) d) :
    run (Unpromoted w) P (shiftRightIter i d) vs bs h = .error (.ub .overshift) := by
  have hat := fr.rest i (Nat.le_refl _)
  have ha : d.1 ≤ sz bs i := by have := hr.1; omega
  obtain ⟨c1, c2, c3, c4⟩ := hg
  have pos := fun (v : BV) (d : Nat) => IsPos.begin_add hw v d
  have part : Call.Part ls i d.1 (sz bs i) := ⟨by rw [fr.len]; exact hi, ha, by rw [hat]; exact Nat.le_refl _⟩
  obtain ⟨v, hv, rv, hs⟩ := e.source hw part
  refine size_then _ hv (failsV_withVec hv (failsV_bind_left (failsV_onMem ?_)))
  exact (C18_shift_right_exact h.mem _ _ (d.2 : Int) hs.range).2
    ⟨(pos v d.1).pos_zero.2 c1, by rw [hs.lenEq, slice_length _ part.2.2]; omega, by omega, by omega⟩

/-- C81: the `ShiftLeft` test passes where shifts by the whole width of a word are defined. For words that are not promoted it passes exactly if
no round is bad, and is undefined otherwise. -/
theorem C81_shift_left (hw : 0 < w) (P : Policy) (h : Heap w) (vs : List BV) (bs : List (List Bool)) (e : EnvOk h vs bs)
    (ds : List (Nat × Nat)) (hl : ds.length ≤ bs.length) (hd : DrawsIn (ShiftRange w) bs ds) :
    (∀ S : ShiftSem w, S.FullShiftOk → Passes S P (loop shiftLeftIter 0 ds) h vs bs) ∧
    ((∀ k (hk : k < ds.length), ¬ ShiftBad w (sz bs k) ds[k]) → Passes (Unpromoted w) P (loop shiftLeftIter 0 ds) h vs bs) ∧
    ((∃ k, ∃ hk : k < ds.length, ShiftBad w (sz bs k) ds[k]) →
      run (Unpromoted w) P (loop shiftLeftIter 0 ds) vs bs h = .error (.ub .overshift)) := by
  have fr : From 0 bs bs := ⟨rfl, fun _ _ => rfl⟩
  have hr : ∀ k (hk : k < ds.length), ShiftRange w (sz bs (0 + k)) ds[k] := fun k hk => by rw [Nat.zero_add]; exact hd k hk
  refine ⟨fun S hS => ?_, fun hx => ?_, fun ⟨k, hk, hx⟩ => ?_⟩
  · exact (shift_loop S P shiftLeftIter (ShiftRange w) (fun _ _ => True) (fun i d h vs ls bs e fr hi hr _ =>
      shiftLeft_good hw S P i d h vs ls bs e fr hi hr (.inr hS)) ds 0 e fr (by omega) hr).1 fun _ _ => trivial
  · exact (shift_loop (Unpromoted w) P shiftLeftIter (ShiftRange w) (fun n d => ¬ ShiftBad w n d) (fun i d h vs ls bs e fr hi hr hg =>
      shiftLeft_good hw _ P i d h vs ls bs e fr hi hr (.inl hg)) ds 0 e fr (by omega) hr).1 fun k hk => by rw [Nat.zero_add]; exact hx k hk
  · exact (shift_loop (Unpromoted w) P shiftLeftIter (ShiftRange w) (fun n d => ¬ ShiftBad w n d) (fun i d h vs ls bs e fr hi hr hg =>
      shiftLeft_good hw _ P i d h vs ls bs e fr hi hr (.inl hg)) ds 0 e fr (by omega) hr).2 _ (fun i d h vs ls bs e fr hi hr hg =>
      shiftLeft_bad hw P i d h vs ls bs e fr hi hr (not_not.1 hg)) ⟨k, hk, not_not.2 (by rw [Nat.zero_add]; exact hx)⟩

/-- C81: the `ShiftRight` test, likewise. -/
theorem C81_shift_right (hw : 0 < w) (P : Policy) (h : Heap w) (vs : List BV) (bs : List (List Bool)) (e : EnvOk h vs bs)
    (ds : List (Nat × Nat)) (hl : ds.length ≤ bs.length) (hd : DrawsIn (ShiftRange w) bs ds) :
    (∀ S : ShiftSem w, S.FullShiftOk → Passes S P (loop shiftRightIter 0 ds) h vs bs) ∧
    ((∀ k (hk : k < ds.length), ¬ ShiftBad w (sz bs k) ds[k]) → Passes (Unpromoted w) P (loop shiftRightIter 0 ds) h vs bs) ∧
    ((∃ k, ∃ hk : k < ds.length, ShiftBad w (sz bs k) ds[k]) →
      run (Unpromoted w) P (loop shiftRightIter 0 ds) vs bs h = .error (.ub .overshift)) := by
  have fr : From 0 bs bs := ⟨rfl, fun _ _ => rfl⟩
  have hr : ∀ k (hk : k < ds.length), ShiftRange w (sz bs (0 + k)) ds[k] := fun k hk => by rw [Nat.zero_add]; exact hd k hk
  refine ⟨fun S hS => ?_, fun hx => ?_, fun ⟨k, hk, hx⟩ => ?_⟩
  · exact (shift_loop S P shiftRightIter (ShiftRange w) (fun _ _ => True) (fun i d h vs ls bs e fr hi hr _ =>
      shiftRight_good hw S P i d h vs ls bs e fr hi hr (.inr hS)) ds 0 e fr (by omega) hr).1 fun _ _ => trivial
  · exact (shift_loop (Unpromoted w) P shiftRightIter (ShiftRange w) (fun n d => ¬ ShiftBad w n d) (fun i d h vs ls bs e fr hi hr hg =>
      shiftRight_good hw _ P i d h vs ls bs e fr hi hr (.inl hg)) ds 0 e fr (by omega) hr).1 fun k hk => by rw [Nat.zero_add]; exact hx k hk
  · exact (shift_loop (Unpromoted w) P shiftRightIter (ShiftRange w) (fun n d => ¬ ShiftBad w n d) (fun i d h vs ls bs e fr hi hr hg =>
      shiftRight_good hw _ P i d h vs ls bs e fr hi hr (.inl hg)) ds 0 e fr (by omega) hr).2 _ (fun i d h vs ls bs e fr hi hr hg =>
      shiftRight_bad hw P i d h vs ls bs e fr hi hr (not_not.1 hg)) ⟨k, hk, not_not.2 (by rw [Nat.zero_add]; exact hx)⟩

/-- C81: the shift tests can draw a bad round on the vectors of one word and of two words. -/
theorem C81_shift_reached (hw : 1 < w) : (ShiftRange w w (0, 1) ∧ ShiftBad w w (0, 1)) ∧ (ShiftRange w (2 * w) (w, 1) ∧ ShiftBad w (2 * w) (w, 1)) := by
  refine ⟨⟨⟨by omega, by omega⟩, Nat.zero_mod _, by omega, by omega, by omega⟩, ⟨by show w ≤ _; omega, by omega⟩, Nat.mod_self _, ?_, by omega, by omega⟩
  show 2 * w - w = w
  omega

/-! ### The tests of `bit_vector` -/

/-- C81: `Exactly` holds for every test with valid calls. -/
theorem C81_exactly (hw : 0 < w) (P : Policy) (p : Prog w) (h : Heap w) (vs : List BV) (bs : List (List Bool)) (e : EnvOk h vs bs)
    (hv : Valid p bs) : Exactly P p h vs bs := by
  refine ⟨fun S hS => ?_, fun hc S => ?_, run_bad hw P p e hv⟩
  · obtain ⟨vs', h', e1, -⟩ := run_ok hw S P p e hv (.inr hS)
    exact ⟨vs', _, h', e1⟩
  · obtain ⟨vs', h', e1, -⟩ := run_ok hw S P p e hv (.inl hc)
    exact ⟨vs', _, h', e1⟩

/-- A test with one statement for each draw. -/
theorem map_always {D : Type} (p : List (List Bool) → Step w → Prop) (f : D → List (List Bool) → Step w) (inv : List D → List (List Bool) → Prop)
    (step : ∀ d ds bs, inv (d :: ds) bs → p bs (f d bs) ∧ inv ds ((f d bs).act.std bs).1) (ds : List D) (bs : List (List Bool)) (hi : inv ds bs) :
    Always p (ds.map f) bs := by
  induction ds generalizing bs with
  | nil => trivial
  | cons d ds ih =>
    obtain ⟨h1, h2⟩ := step d ds bs hi
    exact ⟨h1, ih _ h2⟩

/-- A test with several statements for each draw. -/
theorem flatMap_always {D : Type} (p : List (List Bool) → Step w → Prop) (f : D → Prog w) (inv : List D → List (List Bool) → Prop)
    (step : ∀ d ds bs, inv (d :: ds) bs → Always p (f d) bs ∧ inv ds (after (f d) bs)) (ds : List D) (bs : List (List Bool)) (hi : inv ds bs) :
    Always p (ds.flatMap f) bs := by
  induction ds generalizing bs with
  | nil => trivial
  | cons d ds ih =>
    obtain ⟨h1, h2⟩ := step d ds bs hi
    rw [List.flatMap_cons, always_append]
    exact ⟨h1, ih _ h2⟩

theorem sz_set (bs : List (List Bool)) (i k : Nat) (x : List Bool) (hi : i < bs.length) :
    sz (bs.set i x) k = if i = k then x.length else sz bs k := by
  unfold sz
  rw [at'_set _ _ _ _ hi]
  split_ifs <;> rfl

theorem sz_set_self (bs : List (List Bool)) (i : Nat) (x : List Bool) (hi : i < bs.length) : sz (bs.set i x) i = x.length := by
  rw [sz_set _ _ _ _ hi, if_pos rfl]

theorem lt_set {bs : List (List Bool)} {i k : Nat} {x : List Bool} (h : k < bs.length) : k < (bs.set i x).length := by
  rw [List.length_set]; exact h

/-- One statement, with a comparison of vector `i`. -/
theorem one_valid (bs : List (List Bool)) (a : Act w) (answer : Bool) (i : Nat) (hpl : a.Plain) (hpre : a.Pre bs) (hs : a.Size bs)
    (hlen : i < (a.std bs).1.length) : (⟨a, answer, [.all i]⟩ : Step w).Valid bs := ⟨hpl, hpre, hs, whole_one hlen⟩

/-- C81: `InsertAtEnd1` passes on every machine. -/
theorem C81_insert_at_end1 (hw : 0 < w) (S : ShiftSem w) (P : Policy) (h : Heap w) (vs : List BV) (bs : List (List Bool)) (e : EnvOk h vs bs)
    (i : Nat) (hi : i < bs.length) (ds : List Bool) : Passes S P (insertAtEnd1 i ds) h vs bs := by
  refine passes_of_fine hw S P e (map_always Fine _ (fun _ bs => i < bs.length) (fun x ds bs hi => ?_) ds bs hi)
  refine ⟨⟨one_valid bs _ _ i trivial ⟨hi, Nat.le_refl _⟩ trivial (lt_set hi), ?_⟩, lt_set hi⟩
  show ¬ _
  unfold sz
  omega

/-- C81: `InsertAtBegin1`: exactly one round can be undefined, the one that makes a full word of the vector. -/
theorem C81_insert_at_begin1 (hw : 0 < w) (P : Policy) (h : Heap w) (vs : List BV) (bs : List (List Bool)) (e : EnvOk h vs bs)
    (i : Nat) (hi : i < bs.length) (ds : List Bool) :
    Exactly P (insertAtBegin1 i ds) h vs bs ∧ (Calm (insertAtBegin1 i ds : Prog w) bs ↔ ¬ (1 < w ∧ sz bs i < w ∧ w ≤ sz bs i + ds.length)) := by
  refine ⟨C81_exactly hw P _ h vs bs e (map_always _ _ (fun _ bs => i < bs.length) (fun x ds bs hi => ?_) ds bs hi), ?_⟩
  · exact ⟨one_valid bs _ _ i trivial ⟨hi, Nat.zero_le _⟩ trivial (lt_set hi), lt_set hi⟩
  · clear e
    induction ds generalizing bs with
    | nil =>
      refine iff_of_true trivial ?_
      simp only [List.length_nil]
      omega
    | cons x ds ih =>
      have hz : sz (bs.set i ((at' bs i).take 0 ++ [x] ++ (at' bs i).drop 0)) i = sz bs i + 1 := by
        rw [sz_set_self _ _ _ hi]
        unfold sz
        simp
      have h2 := ih (bs.set i ((at' bs i).take 0 ++ [x] ++ (at' bs i).drop 0)) (lt_set hi)
      rw [hz] at h2
      refine (and_congr Iff.rfl h2).trans ?_
      show ¬ (0 % w = 0 ∧ sz bs i + 1 - 0 = w ∧ 1 < w) ∧ _ ↔ _
      rw [Nat.zero_mod, List.length_cons]
      omega

/-- C81: for 32- and 64-bit words `InsertAtBegin1`, with its `64 * digits` rounds from an empty vector, is undefined whatever it draws. -/
theorem C81_insert_at_begin1_always (hw : 1 < w) (P : Policy) (h : Heap w) (vs : List BV) (bs : List (List Bool)) (e : EnvOk h vs bs)
    (i : Nat) (hi : i < bs.length) (h0 : at' bs i = []) (ds : List Bool) (hn : ds.length = 64 * w) :
    run (Unpromoted w) P (insertAtBegin1 i ds) vs bs h = .error (.ub .overshift) := by
  obtain ⟨h1, h2⟩ := C81_insert_at_begin1 (by omega) P h vs bs e i hi ds
  refine h1.undefined fun hc => h2.1 hc ?_
  have : sz bs i = 0 := by unfold sz; rw [h0]; rfl
  omega

/-- C81: `InsertAtRand1`. -/
theorem C81_insert_at_rand1 (hw : 0 < w) (P : Policy) (h : Heap w) (vs : List BV) (bs : List (List Bool)) (e : EnvOk h vs bs)
    (i : Nat) (hi : i < bs.length) (ds : List (Nat × Bool))
    (hd : DrawsAlong (fun d => (insertAtRand1 i [d] : Prog w)) (fun bs d => d.1 ≤ sz bs i) ds bs) : Exactly P (insertAtRand1 i ds) h vs bs := by
  refine C81_exactly hw P _ h vs bs e (map_always _ _ (fun ds bs => i < bs.length ∧
    DrawsAlong (fun d => (insertAtRand1 i [d] : Prog w)) (fun bs d => d.1 ≤ sz bs i) ds bs) (fun x ds bs ⟨hi, hd⟩ => ?_) ds bs ⟨hi, hd⟩)
  exact ⟨one_valid bs _ _ i trivial ⟨hi, hd.1⟩ trivial (lt_set hi), lt_set hi, hd.2⟩

theorem sz_insertN (bs : List (List Bool)) (i d n : Nat) (x : Bool) (hi : i < bs.length) (hd : d ≤ sz bs i) :
    sz ((Op.insertN i d n x : Op w).apply bs) i = sz bs i + n := by
  show sz (bs.set _ _) i = _
  rw [sz_set_self _ _ _ hi]
  unfold sz at *
  simp
  omega

/-- C81: `InsertAtEnd2` passes on every machine. -/
theorem C81_insert_at_end2 (hw : 0 < w) (S : ShiftSem w) (P : Policy) (h : Heap w) (vs : List BV) (bs : List (List Bool)) (e : EnvOk h vs bs)
    (i : Nat) (hi : i < bs.length) (ds : List Nat) (hn : sz bs i + ds.sum ≤ 2 ^ 24) : Passes S P (insertAtEnd2 i ds) h vs bs := by
  refine passes_of_fine hw S P e (map_always Fine _ (fun ds bs => i < bs.length ∧ sz bs i + ds.sum ≤ 2 ^ 24) (fun n ds bs ⟨hi, hn⟩ => ?_) ds bs ⟨hi, hn⟩)
  rw [List.sum_cons] at hn
  refine ⟨⟨one_valid bs _ _ i trivial ⟨hi, Nat.le_refl _⟩ (by show sz bs i + n ≤ _; omega) (lt_set hi), ?_⟩, lt_set hi, ?_⟩
  · show n = 0 ∨ ¬ _
    unfold sz
    omega
  · show sz ((Op.insertN i (sz bs i) n true : Op w).apply bs) i + _ ≤ _
    rw [sz_insertN _ _ _ _ _ hi (Nat.le_refl _)]
    omega

/-- C81: `InsertAtBegin2`. -/
theorem C81_insert_at_begin2 (hw : 0 < w) (P : Policy) (h : Heap w) (vs : List BV) (bs : List (List Bool)) (e : EnvOk h vs bs)
    (i : Nat) (hi : i < bs.length) (ds : List Nat) (hn : sz bs i + ds.sum ≤ 2 ^ 24) : Exactly P (insertAtBegin2 i ds) h vs bs := by
  refine C81_exactly hw P _ h vs bs e (map_always _ _ (fun ds bs => i < bs.length ∧ sz bs i + ds.sum ≤ 2 ^ 24) (fun n ds bs ⟨hi, hn⟩ => ?_) ds bs ⟨hi, hn⟩)
  rw [List.sum_cons] at hn
  refine ⟨one_valid bs _ _ i trivial ⟨hi, Nat.zero_le _⟩ (by show sz bs i + n ≤ _; omega) (lt_set hi), lt_set hi, ?_⟩
  show sz ((Op.insertN i 0 n true : Op w).apply bs) i + _ ≤ _
  rw [sz_insertN _ _ _ _ _ hi (Nat.zero_le _)]
  omega

/-- C81: `InsertAtRand2`. -/
theorem C81_insert_at_rand2 (hw : 0 < w) (P : Policy) (h : Heap w) (vs : List BV) (bs : List (List Bool)) (e : EnvOk h vs bs)
    (i : Nat) (hi : i < bs.length) (ds : List (Nat × Nat)) (hn : sz bs i + (ds.map Prod.fst).sum ≤ 2 ^ 24)
    (hd : DrawsAlong (fun d => (insertAtRand2 i [d] : Prog w)) (fun bs d => d.2 ≤ sz bs i) ds bs) : Exactly P (insertAtRand2 i ds) h vs bs := by
  refine C81_exactly hw P _ h vs bs e (map_always _ _ (fun ds bs => i < bs.length ∧ sz bs i + (ds.map Prod.fst).sum ≤ 2 ^ 24 ∧
    DrawsAlong (fun d => (insertAtRand2 i [d] : Prog w)) (fun bs d => d.2 ≤ sz bs i) ds bs) (fun d ds bs ⟨hi, hn, hd⟩ => ?_) ds bs ⟨hi, hn, hd⟩)
  rw [List.map_cons, List.sum_cons] at hn
  refine ⟨one_valid bs _ _ i trivial ⟨hi, hd.1⟩ (by show sz bs i + d.1 ≤ _; omega) (lt_set hi), lt_set hi, ?_, hd.2⟩
  show sz ((Op.insertN i d.2 d.1 true : Op w).apply bs) i + _ ≤ _
  rw [sz_insertN _ _ _ _ _ hi hd.1]
  omega

/-- A round of a test that inserts a copy of vector `k`. -/
theorem insert3_round {bs : List (List Bool)} {i k d : Nat} (hi : i < bs.length) (hk : k < bs.length) (hd : d ≤ sz bs i)
    (hn : sz bs i + sz bs k ≤ 2 ^ 24) (f : List (List Bool) → Step w)
    (hf : f (bs ++ [at' bs k]) = ⟨.insertRange i d bs.length 0 (sz bs k), true, [.all i]⟩) :
    Always (fun bs s => s.Valid bs) (onCopy k [f]) bs ∧ (d = sz bs i → Always (fun bs s => s.act.Calm bs) (onCopy k [f]) bs) ∧
      bs.length ≤ (after (onCopy k [f]) bs).length ∧ sz (after (onCopy k [f]) bs) i = sz bs i + sz bs k ∧
      ∀ j, j < bs.length → j ≠ i → sz (after (onCopy k [f]) bs) j = sz bs j := by
  have hat : ∀ j, j < bs.length → at' (bs ++ [at' bs k]) j = at' bs j := fun j hj => by
    unfold Op.at'
    rw [List.getElem?_append_left hj]
  have hat2 : at' (bs ++ [at' bs k]) bs.length = at' bs k := by
    unfold Op.at'
    simp
  have hl : (bs ++ [at' bs k]).length = bs.length + 1 := by simp
  let bs2 := ((f (bs ++ [at' bs k])).act.std (bs ++ [at' bs k])).1
  have e2 : bs2 = (bs ++ [at' bs k]).set i ((at' bs i).take d ++ (at' bs k).take (sz bs k) ++ (at' bs i).drop d) := by
    show ((f (bs ++ [at' bs k])).act.std (bs ++ [at' bs k])).1 = _
    rw [hf]
    show (bs ++ [at' bs k]).set i (_ ++ ((at' (bs ++ [at' bs k]) bs.length).take (sz bs k)).drop 0 ++ _) = _
    rw [hat i hi, hat2, List.drop_zero]
  have l2 : bs2.length = bs.length + 1 := by rw [e2, List.length_set, hl]
  have e3 : after (onCopy k [f]) bs = bs2.set (bs2.length - 1) [] := rfl
  have z2 : ∀ j, sz bs2 j = if i = j then sz bs i + sz bs k else sz (bs ++ [at' bs k]) j := by
    intro j
    rw [e2, sz_set _ _ _ _ (by omega)]
    split_ifs with h1
    · unfold sz at *
      simp
      omega
    · rfl
  refine ⟨⟨⟨trivial, hk, trivial, whole_nil⟩, ?_, ⟨trivial, ?_, trivial, whole_nil⟩, trivial⟩, fun hd => ⟨trivial, ?_, trivial, trivial⟩, ?_, ?_, fun j hj hne => ?_⟩
  · show (f (bs ++ [at' bs k])).Valid (bs ++ [at' bs k])
    have : i < (((f (bs ++ [at' bs k])).act.std (bs ++ [at' bs k])).1).length := by show i < bs2.length; omega
    rw [hf] at this ⊢
    refine one_valid _ _ _ _ trivial ⟨by omega, by rw [hat i hi]; exact hd, by omega, by omega, Nat.zero_le _, by rw [hat2]; exact Nat.le_refl _⟩ ?_ this
    show (at' (bs ++ [at' bs k]) i).length + (sz bs k - 0) ≤ _
    rw [hat i hi]
    exact hn
  · show bs2.length - 1 < bs2.length
    omega
  · show (f (bs ++ [at' bs k])).act.Calm (bs ++ [at' bs k])
    rw [hf]
    show 0 = sz bs k ∨ ¬ (d % w = 0 ∧ (at' (bs ++ [at' bs k]) i).length + (sz bs k - 0) - d = w ∧ sz bs k - 0 < w)
    rw [hat i hi]
    unfold sz at *
    omega
  · rw [e3, List.length_set]
    omega
  · rw [e3, sz_set _ _ _ _ (by omega), if_neg (by omega), z2, if_pos rfl]
  · rw [e3, sz_set _ _ _ _ (by omega), if_neg (by omega), z2, if_neg (Ne.symm hne)]
    unfold sz
    rw [hat j hj]

/-- The vectors of the draws exist, are not the one that grows, and are not too many. -/
theorem insert3_next {bs bs' : List (List Bool)} {i k : Nat} {ks : List Nat} (h1 : bs.length ≤ bs'.length) (h2 : sz bs' i = sz bs i + sz bs k)
    (h3 : ∀ j, j < bs.length → j ≠ i → sz bs' j = sz bs j) (hk : ∀ k ∈ ks, k < bs.length ∧ k ≠ i)
    (hn : sz bs i + (sz bs k + (ks.map (sz bs)).sum) ≤ 2 ^ 24) : (∀ k ∈ ks, k < bs'.length ∧ k ≠ i) ∧ sz bs' i + (ks.map (sz bs')).sum ≤ 2 ^ 24 := by
  have : ks.map (sz bs') = ks.map (sz bs) := List.map_congr_left fun j hj => h3 j (hk j hj).1 (hk j hj).2
  rw [this, h2]
  exact ⟨fun k hm => ⟨lt_of_lt_of_le (hk k hm).1 h1, (hk k hm).2⟩, by omega⟩

theorem at'_left {bs : List (List Bool)} {x : List Bool} {j : Nat} (hj : j < bs.length) : at' (bs ++ [x]) j = at' bs j := by
  unfold Op.at'
  rw [List.getElem?_append_left hj]

theorem at'_last {bs : List (List Bool)} {x : List Bool} : at' (bs ++ [x]) bs.length = x := by
  unfold Op.at'
  simp

/-- C81: `InsertAtEnd3` passes on every machine. -/
theorem C81_insert_at_end3 (hw : 0 < w) (S : ShiftSem w) (P : Policy) (h : Heap w) (vs : List BV) (bs : List (List Bool)) (e : EnvOk h vs bs)
    (i : Nat) (hi : i < bs.length) (ds : List Nat) (hd : ∀ k ∈ ds, k < bs.length ∧ k ≠ i) (hn : sz bs i + (ds.map (sz bs)).sum ≤ 2 ^ 24) :
    Passes S P (insertAtEnd3 i ds) h vs bs := by
  refine passes_of_fine hw S P e (flatMap_always Fine _ (fun ds bs => i < bs.length ∧ (∀ k ∈ ds, k < bs.length ∧ k ≠ i) ∧
    sz bs i + (ds.map (sz bs)).sum ≤ 2 ^ 24) (fun k ds bs ⟨hi, hd, hn⟩ => ?_) ds bs ⟨hi, hd, hn⟩)
  rw [List.map_cons, List.sum_cons] at hn
  obtain ⟨r1, r2, r3, r4, r5⟩ := insert3_round (w := w) hi (hd k List.mem_cons_self).1 (Nat.le_refl (sz bs i)) (by omega)
    (fun bs => ⟨.insertRange i (sz bs i) (bs.length - 1) 0 (sz bs (bs.length - 1)), true, [.all i]⟩) (by simp [sz, at'_left hi, at'_last])
  exact ⟨(always_and _ _ _ _).2 ⟨r1, r2 rfl⟩, lt_of_lt_of_le hi r3, insert3_next r3 r4 r5 (fun k hk => hd k (List.mem_cons_of_mem _ hk)) hn⟩

/-- C81: `InsertAtBegin3`. -/
theorem C81_insert_at_begin3 (hw : 0 < w) (P : Policy) (h : Heap w) (vs : List BV) (bs : List (List Bool)) (e : EnvOk h vs bs)
    (i : Nat) (hi : i < bs.length) (ds : List Nat) (hd : ∀ k ∈ ds, k < bs.length ∧ k ≠ i) (hn : sz bs i + (ds.map (sz bs)).sum ≤ 2 ^ 24) :
    Exactly P (insertAtBegin3 i ds) h vs bs := by
  refine C81_exactly hw P _ h vs bs e (flatMap_always _ _ (fun ds bs => i < bs.length ∧ (∀ k ∈ ds, k < bs.length ∧ k ≠ i) ∧
    sz bs i + (ds.map (sz bs)).sum ≤ 2 ^ 24) (fun k ds bs ⟨hi, hd, hn⟩ => ?_) ds bs ⟨hi, hd, hn⟩)
  rw [List.map_cons, List.sum_cons] at hn
  obtain ⟨r1, r2, r3, r4, r5⟩ := insert3_round (w := w) hi (hd k List.mem_cons_self).1 (Nat.zero_le (sz bs i)) (by omega)
    (fun bs => ⟨.insertRange i 0 (bs.length - 1) 0 (sz bs (bs.length - 1)), true, [.all i]⟩) (by simp [sz, at'_last])
  exact ⟨r1, lt_of_lt_of_le hi r3, insert3_next r3 r4 r5 (fun k hk => hd k (List.mem_cons_of_mem _ hk)) hn⟩

/-- C81: `InsertAtRand3`. -/
theorem C81_insert_at_rand3 (hw : 0 < w) (P : Policy) (h : Heap w) (vs : List BV) (bs : List (List Bool)) (e : EnvOk h vs bs)
    (i : Nat) (hi : i < bs.length) (ds : List (Nat × Nat)) (hk : ∀ k ∈ ds.map Prod.fst, k < bs.length ∧ k ≠ i)
    (hn : sz bs i + ((ds.map Prod.fst).map (sz bs)).sum ≤ 2 ^ 24)
    (hd : DrawsAlong (fun d => (insertAtRand3 i [d] : Prog w)) (fun bs d => d.2 ≤ sz bs i) ds bs) : Exactly P (insertAtRand3 i ds) h vs bs := by
  refine C81_exactly hw P _ h vs bs e (flatMap_always _ _ (fun ds bs => i < bs.length ∧ ((∀ k ∈ ds.map Prod.fst, k < bs.length ∧ k ≠ i) ∧
    sz bs i + ((ds.map Prod.fst).map (sz bs)).sum ≤ 2 ^ 24) ∧
    DrawsAlong (fun d => (insertAtRand3 i [d] : Prog w)) (fun bs d => d.2 ≤ sz bs i) ds bs) (fun d ds bs ⟨hi, ⟨hk, hn⟩, hd⟩ => ?_) ds bs ⟨hi, ⟨hk, hn⟩, hd⟩)
  rw [List.map_cons] at hk hn
  rw [List.map_cons, List.sum_cons] at hn
  obtain ⟨r1, r2, r3, r4, r5⟩ := insert3_round (w := w) hi (hk d.1 List.mem_cons_self).1 hd.1 (by omega)
    (fun bs => ⟨.insertRange i d.2 (bs.length - 1) 0 (sz bs (bs.length - 1)), true, [.all i]⟩) (by simp [sz, at'_last])
  exact ⟨r1, lt_of_lt_of_le hi r3, insert3_next r3 r4 r5 (fun k hm => hk k (List.mem_cons_of_mem _ hm)) hn, hd.2⟩

/-- A statement that may be skipped. -/
theorem unlessEmpty_fine {bs : List (List Bool)} {k : Nat} (p : List (List Bool) → Step w → Prop) (f : List (List Bool) → Step w)
    (h0 : p bs ⟨.call (.size k), true, []⟩) (hl : ((f bs).act.std bs).1.length = bs.length) (h1 : 0 < sz bs k → p bs (f bs)) :
    p bs (unlessEmpty k f bs) ∧ ((unlessEmpty k f bs).act.std bs).1.length = bs.length := by
  unfold unlessEmpty
  by_cases hz : sz bs k = 0
  · rw [if_pos hz]
    exact ⟨h0, rfl⟩
  · rw [if_neg hz]
    exact ⟨h1 (by omega), hl⟩

theorem size_valid {bs : List (List Bool)} {k : Nat} (hk : k < bs.length) : (⟨.call (.size k), true, []⟩ : Step w).Valid bs :=
  ⟨trivial, hk, trivial, whole_nil⟩

theorem size_fine {bs : List (List Bool)} {k : Nat} (hk : k < bs.length) : Fine bs (⟨.call (.size k), true, []⟩ : Step w) := ⟨size_valid hk, trivial⟩

theorem mem_next {D : Type} {bs bs' : List (List Bool)} {d : D} {ds : List D} {g : D → Nat} (hl : bs'.length = bs.length)
    (h : ∀ k ∈ d :: ds, g k < bs.length) : ∀ k ∈ ds, g k < bs'.length := fun k hk => by rw [hl]; exact h k (List.mem_cons_of_mem _ hk)

/-- C81: `EraseAtBegin1`. -/
theorem C81_erase_at_begin1 (hw : 0 < w) (P : Policy) (h : Heap w) (vs : List BV) (bs : List (List Bool)) (e : EnvOk h vs bs)
    (ds : List Nat) (hd : ∀ k ∈ ds, k < bs.length) : Exactly P (eraseAtBegin1 ds) h vs bs := by
  refine C81_exactly hw P _ h vs bs e (map_always _ _ (fun ds bs => ∀ k ∈ ds, id k < bs.length) (fun k ds bs hd => ?_) ds bs hd)
  have hk : k < bs.length := hd k List.mem_cons_self
  refine And.imp_right (fun hl => mem_next hl hd) (unlessEmpty_fine (w := w) _ _ (size_valid hk) (List.length_set) fun hz => ?_)
  exact one_valid _ _ _ _ trivial ⟨hk, hz⟩ trivial (lt_set hk)

/-- C81: `EraseAtRand1`. -/
theorem C81_erase_at_rand1 (hw : 0 < w) (P : Policy) (h : Heap w) (vs : List BV) (bs : List (List Bool)) (e : EnvOk h vs bs)
    (ds : List (Nat × Nat)) (hk : ∀ d ∈ ds, d.1 < bs.length)
    (hd : DrawsAlong (fun d => (eraseAtRand1 [d] : Prog w)) (fun bs d => d.2 ≤ sz bs d.1 - 1) ds bs) : Exactly P (eraseAtRand1 ds) h vs bs := by
  refine C81_exactly hw P _ h vs bs e (map_always _ _ (fun ds bs => (∀ k ∈ ds, Prod.fst k < bs.length) ∧
    DrawsAlong (fun d => (eraseAtRand1 [d] : Prog w)) (fun bs d => d.2 ≤ sz bs d.1 - 1) ds bs) (fun d ds bs ⟨hk', hd⟩ => ?_) ds bs ⟨hk, hd⟩)
  have hk := hk' d List.mem_cons_self
  refine And.imp_right (fun hl => ⟨mem_next hl hk', hd.2⟩) (unlessEmpty_fine (w := w) _ _ (size_valid hk) (List.length_set) fun hz => ?_)
  have h1 : d.2 ≤ sz bs d.1 - 1 := hd.1
  exact one_valid _ _ _ _ trivial ⟨hk, by show d.2 < sz bs d.1; omega⟩ trivial (lt_set hk)

/-- C81: `EraseAtEnd1` passes on every machine. -/
theorem C81_erase_at_end1 (hw : 0 < w) (S : ShiftSem w) (P : Policy) (h : Heap w) (vs : List BV) (bs : List (List Bool)) (e : EnvOk h vs bs)
    (ds : List Nat) (hd : ∀ k ∈ ds, k < bs.length) : Passes S P (eraseAtEnd1 ds) h vs bs := by
  refine passes_of_fine hw S P e (map_always _ _ (fun ds bs => ∀ k ∈ ds, id k < bs.length) (fun k ds bs hd => ?_) ds bs hd)
  have hk : k < bs.length := hd k List.mem_cons_self
  refine And.imp_right (fun hl => mem_next hl hd) (unlessEmpty_fine (w := w) Fine _ (size_fine hk) (List.length_set) fun hz => ?_)
  refine ⟨one_valid _ _ _ _ trivial ⟨hk, by show sz bs k - 1 < sz bs k; omega⟩ trivial (lt_set hk), ?_⟩
  show ¬ ((sz bs k - 1) % w = 0 ∧ sz bs k - (sz bs k - 1) = w ∧ 1 < w)
  omega

/-- What an erased range leaves is not longer. -/
theorem small_next {bs : List (List Bool)} {k : Nat} {x : List Bool} (hk : k < bs.length) (hx : x.length ≤ sz bs k) (h : ∀ j, sz bs j < 2 ^ 32) :
    ∀ j, sz (bs.set k x) j < 2 ^ 32 := fun j => by
  rw [sz_set _ _ _ _ hk]
  split_ifs
  · exact lt_of_le_of_lt hx (h k)
  · exact h j

theorem unlessEmpty_small {bs : List (List Bool)} {k a b : Nat} (f : List (List Bool) → Step w) (hf : f bs = ⟨.eraseRange k a b, true, [.all k]⟩)
    (hk : k < bs.length) (h : ∀ j, sz bs j < 2 ^ 32) (hab : 0 < sz bs k → a ≤ b ∧ b ≤ sz bs k) :
    ∀ j, sz ((unlessEmpty k f bs).act.std bs).1 j < 2 ^ 32 := by
  unfold unlessEmpty
  by_cases hz : sz bs k = 0
  · rw [if_pos hz]
    exact h
  · rw [if_neg hz, hf]
    refine small_next hk ?_ h
    have := hab (by omega)
    unfold sz
    rw [List.length_append, List.length_take, List.length_drop]
    unfold sz at this
    omega

/-- C81: `EraseAtBegin2`. -/
theorem C81_erase_at_begin2 (hw : 0 < w) (P : Policy) (h : Heap w) (vs : List BV) (bs : List (List Bool)) (e : EnvOk h vs bs)
    (hs : ∀ j, sz bs j < 2 ^ 32) (ds : List (Nat × Nat)) (hk : ∀ d ∈ ds, d.1 < bs.length)
    (hd : DrawsAlong (fun d => (eraseAtBegin2 [d] : Prog w)) (fun bs d => d.2 ≤ sz bs d.1 - 1) ds bs) : Exactly P (eraseAtBegin2 ds) h vs bs := by
  refine C81_exactly hw P _ h vs bs e (map_always _ _ (fun ds bs => (∀ k ∈ ds, Prod.fst k < bs.length) ∧ (∀ j, sz bs j < 2 ^ 32) ∧
    DrawsAlong (fun d => (eraseAtBegin2 [d] : Prog w)) (fun bs d => d.2 ≤ sz bs d.1 - 1) ds bs) (fun d ds bs ⟨hk', hs, hd⟩ => ?_) ds bs ⟨hk, hs, hd⟩)
  have hk := hk' d List.mem_cons_self
  have h1 : d.2 ≤ sz bs d.1 - 1 := hd.1
  refine And.imp_right (fun hl => ⟨mem_next hl hk', unlessEmpty_small _ rfl hk hs fun _ => ⟨Nat.zero_le _, by omega⟩, hd.2⟩)
    (unlessEmpty_fine (w := w) _ _ (size_valid hk) (List.length_set) fun hz => ?_)
  exact one_valid _ _ _ _ trivial ⟨hk, Nat.zero_le _, by show d.2 ≤ sz bs d.1; omega⟩ (hs d.1) (lt_set hk)

/-- C81: `EraseAtEnd2` passes on every machine. -/
theorem C81_erase_at_end2 (hw : 0 < w) (S : ShiftSem w) (P : Policy) (h : Heap w) (vs : List BV) (bs : List (List Bool)) (e : EnvOk h vs bs)
    (hs : ∀ j, sz bs j < 2 ^ 32) (ds : List (Nat × Nat)) (hk : ∀ d ∈ ds, d.1 < bs.length)
    (hd : DrawsAlong (fun d => (eraseAtEnd2 [d] : Prog w)) (fun bs d => d.2 ≤ sz bs d.1 - 1) ds bs) : Passes S P (eraseAtEnd2 ds) h vs bs := by
  refine passes_of_fine hw S P e (map_always _ _ (fun ds bs => (∀ k ∈ ds, Prod.fst k < bs.length) ∧ (∀ j, sz bs j < 2 ^ 32) ∧
    DrawsAlong (fun d => (eraseAtEnd2 [d] : Prog w)) (fun bs d => d.2 ≤ sz bs d.1 - 1) ds bs) (fun d ds bs ⟨hk', hs, hd⟩ => ?_) ds bs ⟨hk, hs, hd⟩)
  have hk := hk' d List.mem_cons_self
  have h1 : d.2 ≤ sz bs d.1 - 1 := hd.1
  refine And.imp_right (fun hl => ⟨mem_next hl hk', unlessEmpty_small _ rfl hk hs fun _ => ⟨by omega, Nat.le_refl _⟩, hd.2⟩)
    (unlessEmpty_fine (w := w) Fine _ (size_fine hk) (List.length_set) fun hz => ?_)
  refine ⟨one_valid _ _ _ _ trivial ⟨hk, by omega, Nat.le_refl _⟩ (hs d.1) (lt_set hk), ?_⟩
  show ¬ (d.2 % w = 0 ∧ sz bs d.1 - d.2 = w ∧ d.2 < sz bs d.1 ∧ sz bs d.1 - d.2 < w)
  omega

/-- C81: `EraseAtRand2`. -/
theorem C81_erase_at_rand2 (hw : 0 < w) (P : Policy) (h : Heap w) (vs : List BV) (bs : List (List Bool)) (e : EnvOk h vs bs)
    (hs : ∀ j, sz bs j < 2 ^ 32) (ds : List (Nat × Nat × Nat)) (hk : ∀ d ∈ ds, d.1 < bs.length)
    (hd : DrawsAlong (fun d => (eraseAtRand2 [d] : Prog w)) (fun bs d => d.2.1 ≤ sz bs d.1 - 1 ∧ d.2.1 ≤ d.2.2 ∧ d.2.2 ≤ sz bs d.1) ds bs) :
    Exactly P (eraseAtRand2 ds) h vs bs := by
  refine C81_exactly hw P _ h vs bs e (map_always _ _ (fun ds bs => (∀ k ∈ ds, Prod.fst k < bs.length) ∧ (∀ j, sz bs j < 2 ^ 32) ∧
    DrawsAlong (fun d => (eraseAtRand2 [d] : Prog w)) (fun bs d => d.2.1 ≤ sz bs d.1 - 1 ∧ d.2.1 ≤ d.2.2 ∧ d.2.2 ≤ sz bs d.1) ds bs)
    (fun d ds bs ⟨hk', hs, hd⟩ => ?_) ds bs ⟨hk, hs, hd⟩)
  have hk := hk' d List.mem_cons_self
  obtain ⟨h1, h2, h3⟩ := hd.1
  refine And.imp_right (fun hl => ⟨mem_next hl hk', unlessEmpty_small _ rfl hk hs fun _ => ⟨h2, h3⟩, hd.2⟩)
    (unlessEmpty_fine (w := w) _ _ (size_valid hk) (List.length_set) fun hz => ?_)
  exact one_valid _ _ _ _ trivial ⟨hk, h2, h3⟩ (hs d.1) (lt_set hk)

/-! ### The other members -/

/-- C81: `PushBack` passes on every machine. -/
theorem C81_push_back (hw : 0 < w) (S : ShiftSem w) (P : Policy) (h : Heap w) (vs : List BV) (bs : List (List Bool)) (e : EnvOk h vs bs)
    (idx : Nat) (hi : idx < bs.length) (ds : List Bool) : Passes S P (pushBackIter idx ds) h vs bs := by
  refine passes_of_fine hw S P e (map_always Fine _ (fun _ bs => idx < bs.length) (fun x ds bs hi => ?_) ds bs hi)
  exact ⟨⟨one_valid bs _ _ idx trivial hi trivial (lt_set hi), trivial⟩, lt_set hi⟩

/-- C81: `PopBack` passes on every machine. -/
theorem C81_pop_back (hw : 0 < w) (S : ShiftSem w) (P : Policy) (h : Heap w) (vs : List BV) (bs : List (List Bool)) (e : EnvOk h vs bs)
    (idx : Nat) (hi : idx < bs.length) (n : Nat) (hn : n ≤ sz bs idx) : Passes S P (popBackIter idx n) h vs bs := by
  refine passes_of_fine hw S P e ?_
  clear e
  induction n generalizing bs with
  | zero => trivial
  | succ n ih =>
    refine ⟨⟨one_valid bs _ _ idx trivial ⟨hi, ?_⟩ trivial (lt_set hi), trivial⟩, ih _ (lt_set hi) ?_⟩
    · intro h0
      unfold sz at hn
      rw [h0] at hn
      simp at hn
    · show n ≤ sz (bs.set _ _) idx
      rw [sz_set_self _ _ _ hi, List.length_dropLast]
      unfold sz at hn
      omega

/-- C81: `BoolIterPairConstructor` passes on every machine. -/
theorem C81_bool_iter_pair (hw : 0 < w) (S : ShiftSem w) (P : Policy) (h : Heap w) (vs : List BV) (bs : List (List Bool)) (e : EnvOk h vs bs)
    (idx : Nat) : Passes S P (boolIterPairIter idx) h vs bs := by
  refine passes_of_fine hw S P e ⟨⟨one_valid bs _ _ _ trivial trivial trivial ?_, trivial⟩, ⟨⟨trivial, ?_, trivial, whole_nil⟩, trivial⟩, trivial⟩
  · show bs.length < (bs ++ [_]).length
    simp
  · show (bs ++ [_]).length - 1 < (bs ++ [_]).length
    simp

/-- C81: `CopyConstructor` passes on every machine. -/
theorem C81_copy_constructor (hw : 0 < w) (S : ShiftSem w) (P : Policy) (h : Heap w) (vs : List BV) (bs : List (List Bool)) (e : EnvOk h vs bs)
    (idx : Nat) (hi : idx < bs.length) : Passes S P (copyConstructorIter idx) h vs bs := by
  refine passes_of_fine hw S P e ⟨⟨one_valid bs _ _ _ trivial hi trivial ?_, trivial⟩, ⟨⟨trivial, ?_, trivial, whole_nil⟩, trivial⟩, trivial⟩
  · show bs.length < (bs ++ [_]).length
    simp
  · show (bs ++ [_]).length - 1 < (bs ++ [_]).length
    simp

/-- C81: the loop of `StringConstructor` passes on every machine. -/
theorem C81_string_constructor (hw : 0 < w) (S : ShiftSem w) (P : Policy) (h : Heap w) (vs : List BV) (bs : List (List Bool)) (e : EnvOk h vs bs)
    (i : Nat) (hi : i < bs.length) (ds : List (List Char)) : Passes S P (stringConstructor i ds) h vs bs := by
  refine passes_of_fine hw S P e (flatMap_always Fine _ (fun _ bs => i < bs.length) (fun s ds bs hi => ?_) ds bs hi)
  have l1 : (bs ++ [digitsOf s]).length = bs.length + 1 := by simp
  have l2 : i < (((bs ++ [digitsOf s]).set i (at' (bs ++ [digitsOf s]) ((bs ++ [digitsOf s]).length - 1))).set ((bs ++ [digitsOf s]).length - 1) []).length := by
    rw [List.length_set, List.length_set]; omega
  refine ⟨⟨⟨⟨trivial, trivial, trivial, whole_nil⟩, trivial⟩, ⟨one_valid _ _ _ _ trivial ⟨?_, ?_, ?_⟩ trivial l2, trivial⟩, trivial⟩, l2⟩
  · show i < (bs ++ [digitsOf s]).length
    omega
  · show (bs ++ [digitsOf s]).length - 1 < (bs ++ [digitsOf s]).length
    omega
  · show i ≠ (bs ++ [digitsOf s]).length - 1
    omega

/-- C81: the second loop of `CopyAssignment` passes on every machine. -/
theorem C81_copy_assignment (hw : 0 < w) (S : ShiftSem w) (P : Policy) (h : Heap w) (vs : List BV) (bs : List (List Bool)) (e : EnvOk h vs bs)
    (i idx : Nat) (hi : i < bs.length) (hx : idx < bs.length) (hne : i ≠ idx) : Passes S P (copyAssignmentIter i idx) h vs bs := by
  refine passes_of_fine hw S P e ⟨⟨one_valid _ _ _ _ trivial ⟨hi, hx⟩ trivial (lt_set hi), trivial⟩, ?_⟩
  show Always Fine _ (bs.set i (at' bs idx))
  have l1 : (bs.set i (at' bs idx)).length = bs.length := List.length_set
  have z1 : sz (bs.set i (at' bs idx)) idx = sz bs idx := by rw [sz_set _ _ _ _ hi, if_neg hne]
  have z2 : sz (bs.set i (at' bs idx)) i = sz bs idx := by rw [sz_set _ _ _ _ hi, if_pos rfl]; rfl
  generalize bs.set i (at' bs idx) = bs1 at l1 z1 z2 ⊢
  have u1 : ∀ (f : List (List Bool) → Step w) b, sz b idx = 0 → unlessEmpty idx f b = ⟨.call (.size idx), true, []⟩ := fun f b hb => if_pos hb
  have u2 : ∀ (f : List (List Bool) → Step w) b, sz b idx ≠ 0 → unlessEmpty idx f b = f b := fun f b hb => if_neg hb
  have cons : ∀ (f : List (List Bool) → Step w) (fs : Prog w) (b : List (List Bool)) (s : Step w), f b = s → Fine b s →
      Always Fine fs (s.act.std b).1 → Always Fine (f :: fs) b := by
    rintro f fs b s rfl h1 h2
    exact ⟨h1, h2⟩
  by_cases h0 : sz bs1 idx = 0
  · have hf : Fine bs1 (⟨.call (.size idx), true, []⟩ : Step w) := size_fine (by omega)
    exact cons _ _ _ _ (u1 _ _ h0) hf (cons _ _ _ _ (u1 _ _ h0) hf (cons _ _ _ _ (u1 _ _ h0) hf trivial))
  · have s1 : Same bs1 (bs1.set idx ((at' bs1 idx).set 0 (!((at' bs1 idx)[0]?).getD false))) := same_set bs1 (by omega) List.length_set
    refine cons _ _ _ _ (u2 _ _ h0) ⟨⟨trivial, ⟨by omega, by show 0 < sz bs1 idx; omega⟩, trivial, whole_nil⟩, trivial⟩ ?_
    show Always Fine _ (bs1.set idx ((at' bs1 idx).set 0 (!((at' bs1 idx)[0]?).getD false)))
    generalize bs1.set idx ((at' bs1 idx).set 0 (!((at' bs1 idx)[0]?).getD false)) = bs2 at s1 ⊢
    have l2 := s1.1
    have y1 := s1.2 idx
    have y2 := s1.2 i
    have g : ∀ j, j < bs.length → sz bs2 j ≠ 0 → Fine bs2 (⟨.call (.get j 0), true, []⟩ : Step w) := fun j hj hz =>
      ⟨⟨trivial, ⟨by omega, by show 0 < sz bs2 j; omega⟩, trivial, whole_nil⟩, trivial⟩
    exact cons _ _ _ _ (u2 _ _ (by omega)) (g _ hx (by omega)) (cons _ _ _ _ (u2 _ bs2 (by omega)) (g _ hi (by omega)) trivial)

/-- C81: the loop of `MoveAssignment` passes on every machine. -/
theorem C81_move_assignment (hw : 0 < w) (S : ShiftSem w) (P : Policy) (h : Heap w) (vs : List BV) (bs : List (List Bool)) (e : EnvOk h vs bs)
    (i idx : Nat) (hi : i < bs.length) (hx : idx < bs.length) (hne : i ≠ idx) : Passes S P (moveAssignmentIter i idx) h vs bs := by
  refine passes_of_fine hw S P e ⟨⟨one_valid _ _ _ _ trivial ⟨hi, hx, hne⟩ trivial ?_, trivial⟩, trivial⟩
  show i < ((bs.set i _).set idx _).length
  rw [List.length_set, List.length_set]
  exact hi

/-- C81: `BracketRead` passes on every machine. -/
theorem C81_bracket_read (hw : 0 < w) (S : ShiftSem w) (P : Policy) (h : Heap w) (vs : List BV) (bs : List (List Bool)) (e : EnvOk h vs bs)
    (idx : Nat) (hi : idx < bs.length) (n : Nat) (hn : n = sz bs idx) : Passes S P (bracketReadIter n idx) h vs bs := by
  refine passes_of_fine hw S P e (map_always Fine _ (fun ks bs => idx < bs.length ∧ ∀ k ∈ ks, k < sz bs idx) (fun k ks bs ⟨hi, hk⟩ => ?_) _ bs
    ⟨hi, fun k hk => by rw [List.mem_range] at hk; omega⟩)
  exact ⟨⟨⟨trivial, ⟨hi, hk k List.mem_cons_self⟩, trivial, whole_nil⟩, trivial⟩, hi, fun k hm => hk k (List.mem_cons_of_mem _ hm)⟩

/-- C81: `BracketWrite` passes on every machine. -/
theorem C81_bracket_write (hw : 0 < w) (S : ShiftSem w) (P : Policy) (h : Heap w) (vs : List BV) (bs : List (List Bool)) (e : EnvOk h vs bs)
    (idx : Nat) (hi : idx < bs.length) (n : Nat) (hn : n = sz bs idx) : Passes S P (bracketWriteIter n idx) h vs bs := by
  refine passes_of_fine hw S P e ?_
  unfold bracketWriteIter
  have key : ∀ (ks : List Nat) (bs : List (List Bool)), idx < bs.length → (∀ k ∈ ks, k < sz bs idx) →
      Always Fine (ks.map fun k => fun _ => (⟨.flip idx k, false, []⟩ : Step w)) bs ∧
      Same bs (after (ks.map fun k => fun _ => (⟨.flip idx k, false, []⟩ : Step w)) bs) := by
    intro ks
    induction ks with
    | nil => exact fun bs _ _ => ⟨trivial, .refl _⟩
    | cons k ks ih =>
      intro bs hi hk
      have s1 : Same bs (bs.set idx ((at' bs idx).set k (!((at' bs idx)[k]?).getD false))) := same_set bs hi List.length_set
      obtain ⟨h1, h2⟩ := ih _ (lt_of_lt_of_eq hi s1.1.symm) fun j hj => by rw [s1.2]; exact hk j (List.mem_cons_of_mem _ hj)
      exact ⟨⟨⟨⟨trivial, ⟨hi, hk k List.mem_cons_self⟩, trivial, whole_nil⟩, trivial⟩, h1⟩, s1.trans h2⟩
  obtain ⟨k1, k2⟩ := key (List.range n) bs hi fun k hk => by rw [List.mem_range] at hk; omega
  have hi' := lt_of_lt_of_eq hi k2.1.symm
  exact (always_append _ _ _ _).2 ⟨k1, ⟨one_valid _ _ _ _ trivial hi' trivial hi', trivial⟩, trivial⟩

/-- C81: `AtRead` passes on every machine. -/
theorem C81_at_read (hw : 0 < w) (S : ShiftSem w) (P : Policy) (h : Heap w) (vs : List BV) (bs : List (List Bool)) (e : EnvOk h vs bs)
    (idx : Nat) (hi : idx < bs.length) (n : Nat) : Passes S P (atReadIter n idx) h vs bs := by
  refine passes_of_fine hw S P e (map_always Fine _ (fun _ bs => idx < bs.length) (fun k ks bs hi => ?_) _ bs hi)
  exact ⟨⟨⟨trivial, hi, trivial, whole_nil⟩, trivial⟩, hi⟩

/-- C81: the loop of `Clear` passes on every machine. -/
theorem C81_clear (hw : 0 < w) (S : ShiftSem w) (P : Policy) (h : Heap w) (vs : List BV) (bs : List (List Bool)) (e : EnvOk h vs bs)
    (idx : Nat) (hi : idx < bs.length) : Passes S P (clearIter idx) h vs bs := by
  refine passes_of_fine hw S P e ⟨⟨⟨trivial, hi, trivial, whole_nil⟩, trivial⟩, ⟨⟨trivial, lt_set hi, trivial, whole_nil⟩, trivial⟩,
    ⟨⟨trivial, lt_set hi, trivial, whole_nil⟩, trivial⟩, trivial⟩

/-- C81: after the assignment and the inversion the two elements that `CopyAssignment` expects to differ do differ. -/
theorem C81_copy_assignment_differ (bs : List (List Bool)) (i idx : Nat) (hi : i < bs.length) (hx : idx < bs.length) (hne : i ≠ idx)
    (h0 : 0 < sz bs idx) : let bs' := after (copyAssignmentIter i idx : Prog w) bs
    (at' bs' i)[0]? = (at' bs idx)[0]? ∧ ∃ x, (at' bs' i)[0]? = some x ∧ (at' bs' idx)[0]? = some (!x) := by
  have u2 : ∀ (f : List (List Bool) → Step w) b, sz b idx ≠ 0 → unlessEmpty idx f b = f b := fun f b hb => if_neg hb
  have z1 : sz (bs.set i (at' bs idx)) idx = sz bs idx := by rw [sz_set _ _ _ _ hi, if_neg hne]
  have a1 : at' (bs.set i (at' bs idx)) idx = at' bs idx := by rw [at'_set _ _ _ _ hi, if_neg hne]
  have e1 : after (copyAssignmentIter i idx : Prog w) bs =
      (bs.set i (at' bs idx)).set idx ((at' bs idx).set 0 (!((at' bs idx)[0]?).getD false)) := by
    have s1 : Same (bs.set i (at' bs idx)) ((bs.set i (at' bs idx)).set idx ((at' bs idx).set 0 (!((at' bs idx)[0]?).getD false))) :=
      same_set _ (lt_set hx) (by rw [a1]; exact List.length_set)
    have cons : ∀ (f : List (List Bool) → Step w) (fs : Prog w) (b : List (List Bool)) (s : Step w), f b = s →
        after (f :: fs) b = after fs (s.act.std b).1 := by
      rintro f fs b s rfl
      rfl
    have z2 := s1.2 idx
    rw [copyAssignmentIter, cons _ _ _ _ rfl, cons _ _ _ _ (u2 _ _ (by show sz (bs.set i (at' bs idx)) idx ≠ 0; omega))]
    show after _ ((bs.set i (at' bs idx)).set idx ((at' (bs.set i (at' bs idx)) idx).set 0 (!((at' (bs.set i (at' bs idx)) idx)[0]?).getD false))) = _
    rw [a1, cons _ _ _ _ (u2 _ _ (by omega)), cons _ _ _ _ (u2 _ _ (by show sz ((bs.set i (at' bs idx)).set idx _) idx ≠ 0; omega))]
    rfl
  have h0' : 0 < (at' bs idx).length := h0
  show (at' (after (copyAssignmentIter i idx : Prog w) bs) i)[0]? = _ ∧ ∃ x, (at' (after (copyAssignmentIter i idx : Prog w) bs) i)[0]? = _ ∧ _
  rw [e1, at'_set _ _ _ _ (lt_set hx), at'_set _ _ _ _ (lt_set hx), if_neg (Ne.symm hne), if_pos rfl, at'_set _ _ _ _ hi, if_pos rfl]
  refine ⟨rfl, (at' bs idx)[0], List.getElem?_eq_getElem h0', ?_⟩
  rw [List.getElem?_set_self h0', List.getElem?_eq_getElem h0']
  rfl

/-! ### Fixtures -/

/-- C81: the fixtures make the vectors that the tests start from: the first `n` bits of the random words, in separate storage. -/
theorem C81_fixture (hw : 0 < w) (P : Policy) (h : Heap w) (hwf : h.WF) (xs : List (List (BitVec w) × Nat))
    (hx : ∀ x ∈ xs, x.1.length * w < 2 ^ 32 ∧ x.2 ≤ x.1.length * w) :
    ∃ vs h', setUp P xs [] h = .ok (vs, h') ∧ EnvOk h' vs (xs.map fun x => (bitsOfWords x.1).take x.2) :=
  wpV_setUp hw xs (EnvOk.nil hwf) hx fun vs h' e => by simpa using e

/-- C81: two series of random vectors with the same sizes are what the tests on two ranges need. -/
theorem C81_fixture_two (xs ys : List (List (BitVec w) × Nat)) (hx : ∀ x ∈ xs ++ ys, 1 ≤ x.2 ∧ x.2 ≤ x.1.length * w)
    (hs : xs.map Prod.snd = ys.map Prod.snd) : TwoRanges xs.length ((xs ++ ys).map fun x => (bitsOfWords x.1).take x.2) := by
  have hl : xs.length = ys.length := by
    have := congrArg List.length hs
    simpa using this
  have key : ∀ (zs : List (List (BitVec w) × Nat)), (∀ x ∈ zs, 1 ≤ x.2 ∧ x.2 ≤ x.1.length * w) → ∀ k (hk : k < zs.length),
      sz (zs.map fun x => (bitsOfWords x.1).take x.2) k = zs[k].2 := by
    intro zs hz k hk
    have := hz _ (List.getElem_mem hk)
    unfold sz Op.at'
    rw [List.getElem?_map, List.getElem?_eq_getElem hk]
    simp only [Option.map_some, Option.getD_some, List.length_take, bitsOfWords_length]
    omega
  refine ⟨by simp; omega, fun i hi => ?_⟩
  have hi2 : xs.length + i < (xs ++ ys).length := by simp; omega
  have hi1 : i < (xs ++ ys).length := by simp; omega
  rw [key _ hx _ hi2, key _ hx _ hi1]
  have h1 : (xs ++ ys)[i].2 = (xs.map Prod.snd)[i]'(by simpa using hi) := by rw [List.getElem_append_left hi, List.getElem_map]
  have h2 : (xs ++ ys)[xs.length + i].2 = (ys.map Prod.snd)[i]'(by simp; omega) := by
    rw [List.getElem_append_right (by omega), List.getElem_map]
    simp
  refine ⟨?_, (hx _ (List.getElem_mem hi1)).1⟩
  rw [h1, h2]
  simp only [hs]

/-- C81: a whole run of the `Copy` test, from the fixture to the last expectation: it passes for all random words and all draws. -/
theorem C81_copy_run (hw : 0 < w) (S : ShiftSem w) (P : Policy) (h : Heap w) (hwf : h.WF) (xs ys : List (List (BitVec w) × Nat))
    (hx : ∀ x ∈ xs ++ ys, x.1.length * w < 2 ^ 32 ∧ 1 ≤ x.2 ∧ x.2 ≤ x.1.length * w) (hs : xs.map Prod.snd = ys.map Prod.snd) (ds : List Draw2)
    (hl : ds.length = xs.length) (hd : ∀ k (hk : k < ds.length), ds[k].InRange w (xs[k]'(by omega)).2 ∧ ds[k].again ≤ ds[k].start1) :
    ∃ r h', (setUp P (xs ++ ys) [] >>= fun vs => run S P (loop (copyIter xs.length) 0 ds) vs ((xs ++ ys).map fun x => (bitsOfWords x.1).take x.2)) h =
      .ok ((r, true), h') := by
  obtain ⟨vs, h', e1, e2⟩ := C81_fixture hw P h hwf (xs ++ ys) fun x hm => ⟨(hx x hm).1, (hx x hm).2.2⟩
  obtain ⟨vs', bs', h'', e3⟩ := C81_copy hw S P h' vs _ e2 xs.length ds (C81_fixture_two xs ys (fun x hm => (hx x hm).2) hs) (by omega) fun k hk => by
    have hk1 : k < (xs ++ ys).length := by simp; omega
    have : sz ((xs ++ ys).map fun x => (bitsOfWords x.1).take x.2) k = (xs[k]'(by omega)).2 := by
      have hm := hx _ (List.getElem_mem hk1)
      unfold sz Op.at'
      rw [List.getElem?_map, List.getElem?_eq_getElem hk1]
      simp only [Option.map_some, Option.getD_some, List.length_take, bitsOfWords_length]
      rw [List.getElem_append_left (by omega)] at hm ⊢
      omega
    rw [this]
    exact hd k hk
  refine ⟨(vs', bs'), h'', ?_⟩
  rw [runV_bind_ok e1]
  exact e3

/-! ### `ShrinkToFit` -/

/-- The number of words needed for `n` bits. -/
def ceilDiv (w n : Nat) : Nat := (n + w - 1) / w

theorem ceilDiv_pred (hw : 0 < w) {n : Nat} (hn : 1 ≤ n) : ceilDiv w n = ceilDiv w (n - 1) + if (n - 1) % w = 0 then 1 else 0 := by
  unfold ceilDiv
  obtain ⟨k, rfl⟩ : ∃ k, n = k + 1 := ⟨n - 1, by omega⟩
  rw [Nat.add_sub_cancel, show k + 1 + w - 1 = k + w by omega, Nat.add_div_right _ hw]
  have h1 := Nat.div_add_mod k w
  have h2 := Nat.mod_lt k hw
  split_ifs with h0
  · have h3 : (w - 1) / w = 0 := Nat.div_eq_of_lt (by omega)
    rw [show k + w - 1 = w - 1 + w * (k / w) by omega, Nat.add_mul_div_left _ _ hw, h3]
    omega
  · have h3 : (k % w - 1) / w = 0 := Nat.div_eq_of_lt (by omega)
    rw [show k + w - 1 = k % w - 1 + w * (k / w + 1) by rw [Nat.mul_add]; omega, Nat.add_mul_div_left _ _ hw, h3]
    omega

theorem ceilDiv_add (hw : 0 < w) (n q : Nat) : ceilDiv w (n + w * q) = ceilDiv w n + q := by
  unfold ceilDiv
  rw [show n + w * q + w - 1 = n + w - 1 + w * q by omega, Nat.add_mul_div_left _ _ hw]

/-- What `n` calls of `pop_back` do, with wrap-around of the length. -/
theorem popN_run (hw : 0 < w) (hdvd : w ∣ 2 ^ 64) (n : Nat) (v : BV) (h : Heap w) (hn : n ≤ 2 ^ 64) (hv : v.length < 2 ^ 64)
    (hd : ceilDiv w (v.length + 2 ^ 64) - ceilDiv w (v.length + 2 ^ 64 - n) ≤ v.vec.size) :
    ∃ h', popN n v h = .ok (⟨{ v.vec with size := v.vec.size - (ceilDiv w (v.length + 2 ^ 64) - ceilDiv w (v.length + 2 ^ 64 - n)) },
      (v.length + 2 ^ 64 - n) % 2 ^ 64⟩, h') := by
  have hmono : ∀ a b : Nat, a ≤ b → ceilDiv w a ≤ ceilDiv w b := fun a b hab => Nat.div_le_div_right (by omega)
  induction n generalizing v h with
  | zero =>
    refine ⟨h, ?_⟩
    unfold popN
    rw [Nat.sub_zero, Nat.sub_self, Nat.sub_zero, Nat.add_mod_right, Nat.mod_eq_of_lt hv]
    rfl
  | succ n ih =>
    obtain ⟨q, hq⟩ := hdvd
    -- the new length
    have hsub : subSize v.length 1 = (v.length + 2 ^ 64 - 1) % 2 ^ 64 := by
      unfold subSize toSize
      split_ifs <;> omega
    have hz : (v.length + 2 ^ 64 - 1) % 2 ^ 64 % w = (v.length + 2 ^ 64 - 1) % w := Nat.mod_mod_of_dvd _ ⟨q, hq⟩
    have hp := ceilDiv_pred hw (show 1 ≤ v.length + 2 ^ 64 by omega)
    have hm := hmono (v.length + 2 ^ 64 - (n + 1)) (v.length + 2 ^ 64 - 1) (by omega)
    -- words dropped by the other calls
    have hrest : ceilDiv w ((v.length + 2 ^ 64 - 1) % 2 ^ 64 + 2 ^ 64) - ceilDiv w ((v.length + 2 ^ 64 - 1) % 2 ^ 64 + 2 ^ 64 - n) =
        ceilDiv w (v.length + 2 ^ 64 - 1) - ceilDiv w (v.length + 2 ^ 64 - (n + 1)) := by
      by_cases h0 : v.length = 0
      · rw [h0]
        have e1 := ceilDiv_add hw (0 + 2 ^ 64 - 1) q
        have e2 := ceilDiv_add hw (0 + 2 ^ 64 - (n + 1)) q
        rw [← hq] at e1 e2
        rw [show (0 + 2 ^ 64 - 1) % 2 ^ 64 + 2 ^ 64 = 0 + 2 ^ 64 - 1 + 2 ^ 64 by omega,
          show 0 + 2 ^ 64 - 1 + 2 ^ 64 - n = 0 + 2 ^ 64 - (n + 1) + 2 ^ 64 by omega, e1, e2]
        omega
      · rw [show (v.length + 2 ^ 64 - 1) % 2 ^ 64 + 2 ^ 64 = v.length + 2 ^ 64 - 1 by omega,
          show v.length + 2 ^ 64 - 1 - n = v.length + 2 ^ 64 - (n + 1) by omega]
    have hlast : ((v.length + 2 ^ 64 - 1) % 2 ^ 64 + 2 ^ 64 - n) % 2 ^ 64 = (v.length + 2 ^ 64 - (n + 1)) % 2 ^ 64 := by omega
    have hlt : (v.length + 2 ^ 64 - 1) % 2 ^ 64 < 2 ^ 64 := Nat.mod_lt _ (by decide)
    by_cases hc : (v.length + 2 ^ 64 - 1) % w = 0
    · rw [if_pos hc] at hp
      have e1 : v.popBack h = .ok (⟨{ v.vec with size := v.vec.size - 1 }, (v.length + 2 ^ 64 - 1) % 2 ^ 64⟩,
          { h with mem := h.mem.place (v.vec.ptr + ((v.vec.size - 1 : Nat) : Int)) 1 fun _ => none }) := by
        unfold BV.popBack BV.dropWord
        rw [hsub]
        dsimp only
        rw [hz, if_pos hc]
        unfold Vec.popBack
        rw [if_neg (by omega)]
        rfl
      obtain ⟨h', e2⟩ := ih ⟨{ v.vec with size := v.vec.size - 1 }, (v.length + 2 ^ 64 - 1) % 2 ^ 64⟩
        { h with mem := h.mem.place (v.vec.ptr + ((v.vec.size - 1 : Nat) : Int)) 1 fun _ => none } (by omega) hlt (by
          show _ ≤ v.vec.size - 1
          rw [hrest]
          omega)
      refine ⟨h', ?_⟩
      unfold popN
      rw [runV_bind_ok e1, e2]
      dsimp only
      rw [hrest, hlast, show v.vec.size - 1 - (ceilDiv w (v.length + 2 ^ 64 - 1) - ceilDiv w (v.length + 2 ^ 64 - (n + 1))) =
        v.vec.size - (ceilDiv w (v.length + 2 ^ 64) - ceilDiv w (v.length + 2 ^ 64 - (n + 1))) by omega]
    · rw [if_neg hc] at hp
      have e1 : v.popBack h = .ok (⟨v.vec, (v.length + 2 ^ 64 - 1) % 2 ^ 64⟩, h) := by
        unfold BV.popBack BV.dropWord
        rw [hsub]
        rw [hz, if_neg hc]
        rfl
      obtain ⟨h', e2⟩ := ih ⟨v.vec, (v.length + 2 ^ 64 - 1) % 2 ^ 64⟩ h (by omega) hlt (by
          show _ ≤ v.vec.size
          rw [hrest]
          omega)
      refine ⟨h', ?_⟩
      unfold popN
      rw [runV_bind_ok e1, e2]
      dsimp only
      rw [hrest, hlast, show v.vec.size - (ceilDiv w (v.length + 2 ^ 64 - 1) - ceilDiv w (v.length + 2 ^ 64 - (n + 1))) =
        v.vec.size - (ceilDiv w (v.length + 2 ^ 64) - ceilDiv w (v.length + 2 ^ 64 - (n + 1))) by omega]

/-- C81: `ShrinkToFit` on a vector with a word or more, of any length: `digits` calls of `pop_back` drop exactly one word, although `length_` wraps
around for vectors shorter than a word. The expectation is met exactly if the library honours the request. -/
theorem C81_shrink_to_fit (hw : 0 < w) (hdvd : w ∣ 2 ^ 64) (P : Policy) (h : Heap w) (v : BV) (l : List Bool) (r : Rep h v l) (h1 : 1 ≤ v.vec.size)
    (hv : v.length < 2 ^ 64) : ∃ v' h', shrinkIter P v h = .ok ((v', P.shrink (v.vec.size - 1) v.vec.cap), h') ∧ v'.vec.size = v.vec.size - 1 ∧
      v'.length = if w ≤ l.length then l.length - w else 2 ^ 64 + l.length - w := by
  have hw64 : w ≤ 2 ^ 64 := Nat.le_of_dvd (by decide) hdvd
  have hlen := r.len
  have hcap := r.ok.cap
  have hone : ceilDiv w (v.length + 2 ^ 64) - ceilDiv w (v.length + 2 ^ 64 - w) = 1 := by
    have := ceilDiv_add hw (v.length + 2 ^ 64 - w) 1
    rw [Nat.mul_one, show v.length + 2 ^ 64 - w + w = v.length + 2 ^ 64 by omega] at this
    omega
  obtain ⟨h', e1⟩ := popN_run hw hdvd w v h hw64 hv (by omega)
  rw [hone] at e1
  have hl : (v.length + 2 ^ 64 - w) % 2 ^ 64 = if w ≤ l.length then l.length - w else 2 ^ 64 + l.length - w := by
    split_ifs <;> omega
  unfold shrinkIter
  rw [runV_bind_ok e1]
  unfold BV.shrinkToFit Vec.shrinkToFit
  dsimp only
  suffices hh : ∃ v' h'' b, (((if P.shrink (v.vec.size - 1) v.vec.cap then
        ({ v.vec with size := v.vec.size - 1 } : Vec).realloc (v.vec.size - 1) else pure { v.vec with size := v.vec.size - 1 }) >>= fun vec =>
          (pure ⟨vec, (v.length + 2 ^ 64 - w) % 2 ^ 64⟩ : V w BV)) >>= fun v2 =>
        (pure (v2, decide (v2.capacity w < BV.capacity w ⟨{ v.vec with size := v.vec.size - 1 }, (v.length + 2 ^ 64 - w) % 2 ^ 64⟩)) : V w (BV × Bool))) h' =
          .ok ((v', b), h'') ∧ b = P.shrink (v.vec.size - 1) v.vec.cap ∧ v'.vec.size = v.vec.size - 1 ∧
      v'.length = if w ≤ l.length then l.length - w else 2 ^ 64 + l.length - w by
    obtain ⟨v', h'', b, e, rfl, h2, h3⟩ := hh
    exact ⟨v', h'', e, h2, h3⟩
  cases hs : P.shrink (v.vec.size - 1) v.vec.cap with
  | true =>
    rw [if_pos rfl]
    exact ⟨_, _, _, rfl, decide_eq_true (Nat.mul_lt_mul_of_pos_right (show v.vec.size - 1 < v.vec.cap by omega) hw), rfl, hl⟩
  | false =>
    rw [if_neg (by decide)]
    exact ⟨_, _, _, rfl, decide_eq_false (Nat.lt_irrefl _), rfl, hl⟩

/-! ### Concrete cases that meet the hypotheses -/

/-- Two series of one vector of 17 bits in three 8-bit words. -/
def exXs : List (List (BitVec 8) × Nat) := [([0xA5#8, 0x3C#8, 0x77#8], 17)]
def exYs : List (List (BitVec 8) × Nat) := [([0x01#8, 0xF0#8, 0x0E#8], 17)]
private theorem one {p : ∀ k, k < 1 → Prop} (h : p 0 (by decide)) : ∀ k hk, p k hk := by
  intro k hk
  obtain rfl : k = 0 := by omega
  exact h

def exDraw : Draw2 := ⟨3, 5, 4, 1⟩

example (S : ShiftSem 8) (P : Policy) : ∃ r h', (setUp P (exXs ++ exYs) [] >>= fun vs =>
    run S P (loop (copyIter 1) 0 [exDraw]) vs ((exXs ++ exYs).map fun x => (bitsOfWords x.1).take x.2)) exH = .ok ((r, true), h') :=
  C81_copy_run (by decide) S P exH exH_wf exXs exYs (by decide) rfl [exDraw] rfl
    (one ⟨⟨by decide, by decide, by decide, by decide⟩, by decide⟩)

/-- The fixture of two ranges. -/
theorem exTwo (P : Policy) : ∃ (vs : List BV) (h' : Heap 8), EnvOk h' vs ((exXs ++ exYs).map fun x => (bitsOfWords x.1).take x.2) ∧
    TwoRanges 1 ((exXs ++ exYs).map fun x => (bitsOfWords x.1).take x.2) := by
  obtain ⟨vs, h', -, e⟩ := C81_fixture (by decide) P exH exH_wf (exXs ++ exYs) (by decide)
  exact ⟨vs, h', e, C81_fixture_two exXs exYs (by decide) rfl⟩

/-- The hypotheses of the tests on two ranges, with a bad round of `CopyBackward`: both whole words are copied onto the other vector. -/
example (P : Policy) : ∃ vs h', run (Unpromoted 8) P (loop (copyBackwardIter 1) 0 [⟨0, 0, 0, 0⟩]) vs
    ((exXs ++ exYs).map fun x => (bitsOfWords x.1).take x.2) h' = .error (.ub .overshift) := by
  obtain ⟨vs, h', e, t⟩ := exTwo P
  refine ⟨vs, h', (C81_copy_backward (by decide) P h' vs _ e 1 [⟨0, 0, 0, 0⟩] t (by decide) (one ?_)).2.2 ⟨0, by decide, ?_⟩⟩
  · exact ⟨(C81_copy_backward_reached _ (by decide) (by decide)).1, by decide, by decide⟩
  · exact (C81_copy_backward_reached _ (by decide) (by decide)).2

/-- A comparison with booleans of which one differs: the test fails. -/
example (S : ShiftSem 8) (P : Policy) : ¬ Passes S P [fun _ => ⟨.call (.size 0), true, [.all 0]⟩] exH [exV] [exL.set 9 (!exL[9]!)] :=
  C81_detects (by decide) S P _ [] exH exH [exV] [exV] [exL.set 9 (!exL[9]!)] [exL] (.num 11) rfl exEnv
    (by intro c hc; rw [List.mem_singleton] at hc; subst hc; exact (by decide : 0 < [exL].length))
    (.inr ⟨.all 0, List.mem_singleton.2 rfl, by show ¬ (exL = _); decide⟩)

/-- Starts 3 and 9 in a vector of 11 bits. -/
example (P : Policy) : Passes (Unpromoted 8) P (loop reverseIter 0 [[3, 9]]) exH [exV] [exL] :=
  (C81_reverse (by decide) P exH [exV] [exL] exEnv [[3, 9]] (by decide)
    (one ⟨by decide, by unfold StartRange; decide⟩)).2.1 (one (by decide))

example : DrawsIn (ShiftRange 8) [exL] [(4, 3)] ∧ ¬ ShiftBad 8 (sz [exL] 0) (4, 3) := ⟨one ⟨by decide, by decide⟩, fun h => absurd h.1 (by decide)⟩

example : DrawsIn (FillRange 8) [exL] [((2, 3), (9, 1))] := one ⟨⟨by decide, by decide⟩, by decide, by decide⟩

example : DrawsIn (fun n d => 1 ≤ n ∧ n ≤ 2 ^ 32 ∧ RotateRange n d) [exL] [[(2, 7), (0, 10)]] := one ⟨by decide, by decide, by unfold RotateRange; decide⟩

/-- Insertions at positions 11 and 0 of a vector of 11 bits, then at position 13, the end. -/
example : DrawsAlong (fun d => (insertAtRand1 0 [d] : Prog 8)) (fun bs d => d.1 ≤ sz bs 0) [(11, true), (0, false), (13, true)] [exL] :=
  ⟨by decide, by decide, by decide, trivial⟩

example : DrawsAlong (fun d => (eraseAtRand2 [d] : Prog 8)) (fun bs d => d.2.1 ≤ sz bs d.1 - 1 ∧ d.2.1 ≤ d.2.2 ∧ d.2.2 ≤ sz bs d.1)
    [(0, 4, 9), (0, 0, 6)] [exL] := ⟨by decide, by decide, trivial⟩

/-- An empty vector. -/
theorem exEmpty : EnvOk exH [BV.default] [[]] := by
  have := (EnvOk.nil exH_wf).push (wpV_default exH_wf).1 (wpV_default exH_wf).2
  exact this

example (P : Policy) (ds : List Bool) (hn : ds.length = 64 * 8) :
    run (Unpromoted 8) P (insertAtBegin1 0 ds) [BV.default] [[]] exH = .error (.ub .overshift) :=
  C81_insert_at_begin1_always (by decide) P exH _ _ exEmpty 0 (by decide) rfl ds hn

example (P : Policy) : ∃ v' h', shrinkIter P exV exH = .ok ((v', P.shrink 1 2), h') ∧ v'.vec.size = 1 ∧ v'.length = 3 :=
  C81_shrink_to_fit (by decide) (by decide) P exH exV exL exRep (by decide) (by decide)

end BitLib.Tests
