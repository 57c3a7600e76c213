import Verif.Lemmas.Allocs
/-
C92: programs with allocators that have a state.
-/
namespace BitLib
open Allocs
variable {w : Nat}

theorem wpA_withObj {α : Type} {xs : List AB} {i : Nat} {x : AB} {f : AB → AV w α} {s : Heap w × Ledger} {Q : α → Heap w × Ledger → Prop}
    (hx : xs[i]? = some x) (hf : wpA (f x) s Q) : wpA (withObj xs i f) s Q := by
  unfold withObj
  rw [hx]
  exact hf

/-- C92: a valid call within the limits does to the contents what it does without allocators; afterwards every vector has the allocator of the
specification, that allocator has lent the storage of the vector, nothing else is lent, and only the allocators of the specification were asked
for storage. -/
theorem C92_step (hw : 0 < w) (T : Traits) (S : ShiftSem w) (P : Policy) (s : Heap w × Ledger) (xs : List AB) (ls : List (List Bool)) (as : List Nat)
    (op : AOp w) (e : AEnvOk s xs ls as) (hp : op.Proper) (hpre : op.plain.Pre ls) (hlim : op.plain.Lim S ls) :
    ∃ xs' ans s' ls', op.exec T S P xs s = .ok ((xs', ans), s') ∧ op.plain.Spec ls ls' ans ∧ AEnvOk s' xs' ls' (op.allocs T as) ∧
      AskedOnly s.2 s'.2 (op.sources T as) := by
  suffices hh : wpA (op.exec T S P xs) s fun r s' => ∃ ls', op.plain.Spec ls ls' r.2 ∧ AEnvOk s' r.1 ls' (op.allocs T as) ∧
      AskedOnly s.2 s'.2 (op.sources T as) by
    obtain ⟨⟨xs', ans⟩, s', e1, ls', h1, h2, h3⟩ := hh
    exact ⟨xs', ans, s', ls', e1, h1, h2, h3⟩
  have wf := e.env.wf
  have hlen : xs.length = ls.length := by have := e.env.len; simpa using this
  -- constructors
  have new : ∀ (f : AV w AB) (l : List Bool) (a : Nat) (src : List Nat),
      (wpA f s fun x s' => AskedOnly s.2 s'.2 src ∧ AEnvOk s' (xs ++ [x]) (ls ++ [l]) (as ++ [a])) →
      wpA (addObj xs f) s fun r s' => r.2 = .unit ∧ AEnvOk s' r.1 (ls ++ [l]) (as ++ [a]) ∧ AskedOnly s.2 s'.2 src := by
    intro f l a src hf
    refine wpA_bind (wpA_mono hf ?_)
    rintro x s' ⟨h1, h2⟩
    exact wpA_pure ⟨rfl, h2, h1⟩
  cases op with
  | newEmpty a =>
    refine wpA_mono (new _ [] (a.getD T.dflt) [] (wpA_pure ⟨asked_refl, env_empty e _⟩)) ?_
    rintro r s' ⟨h1, h2, h3⟩
    exact ⟨_, ⟨rfl, h1⟩, h2, h3⟩
  | newCount n a =>
    refine wpA_mono (new _ _ _ _ (made_ok hw e (wpV_ofCount hw wf hlim.1 fun _ _ h1 h2 => ⟨h1, h2⟩))) ?_
    rintro r s' ⟨h1, h2, h3⟩
    exact ⟨_, ⟨rfl, h1⟩, h2, h3⟩
  | newCountVal n x a =>
    refine wpA_mono (new _ _ _ _ (made_ok hw e (wpV_ofCountVal hw wf hlim.1 fun _ _ h1 h2 => ⟨h1, h2⟩))) ?_
    rintro r s' ⟨h1, h2, h3⟩
    exact ⟨_, ⟨rfl, h1⟩, h2, h3⟩
  | newBits j p q a =>
    obtain ⟨o, ho, _, r, _⟩ := env_get e (i := j) hpre.1
    refine wpA_withObj ho ?_
    refine wpA_mono (new _ _ _ _ (made_ok hw e (wpV_ofBits S hw wf (r.holdsSeq hw hpre.2.1 hpre.2.2) fun _ _ h1 h2 => ⟨h1, h2⟩))) ?_
    rintro r s' ⟨h1, h2, h3⟩
    exact ⟨_, ⟨rfl, h1⟩, h2, h3⟩
  | newBoolList l a =>
    refine wpA_mono (new _ _ _ _ (ofBoolList_ok S hw P l _ e)) ?_
    rintro r s' ⟨h1, h2, h3⟩
    exact ⟨_, ⟨rfl, h1⟩, h2, h3⟩
  | newWordList l a =>
    refine wpA_mono (new _ _ _ _ (made_ok hw e (wpV_ofWords hw wf fun _ _ h1 h2 => ⟨h1, h2⟩))) ?_
    rintro r s' ⟨h1, h2, h3⟩
    exact ⟨_, ⟨rfl, h1⟩, h2, h3⟩
  | newBoolRange l a =>
    refine wpA_mono (new _ _ _ _ (ofBoolRange_ok T S hw P l _ e)) ?_
    rintro r s' ⟨h1, h2, h3⟩
    exact ⟨_, ⟨rfl, h1⟩, h2, h3⟩
  | newWordRange l a =>
    refine wpA_mono (new _ _ _ _ (ofWordRange_ok T hw P l _ e)) ?_
    rintro r s' ⟨h1, h2, h3⟩
    exact ⟨_, ⟨rfl, h1⟩, h2, h3⟩
  | newString t =>
    refine wpA_mono (new _ _ _ _ (ofString_ok T S hw P t e)) ?_
    rintro r s' ⟨h1, h2, h3⟩
    exact ⟨_, ⟨rfl, h1⟩, h2, h3⟩
  | newCopy j =>
    obtain ⟨o, ho, _, r, ha, _⟩ := env_get e (i := j) hpre
    refine wpA_withObj ho ?_
    refine wpA_mono (new _ _ _ _ (made_ok (a := T.onCopy o.al) hw e (wpV_copyOf hw wf r fun _ _ h1 h2 => ⟨h1, h2⟩))) ?_
    rintro r s' ⟨h1, h2, h3⟩
    rw [← ha] at h2 h3
    exact ⟨_, ⟨rfl, h1⟩, h2, h3⟩
  | newMove j =>
    obtain ⟨o, ho, _, r, ha, _⟩ := env_get e (i := j) hpre
    refine wpA_withObj ho ?_
    refine wpA_mono (new _ _ _ _ (made_ok (a := T.onCopy o.al) hw e (wpV_copyOf hw wf r fun _ _ h1 h2 => ⟨h1, h2⟩))) ?_
    rintro r s' ⟨h1, h2, h3⟩
    rw [← ha] at h2 h3
    exact ⟨_, ⟨rfl, h1⟩, h2, h3⟩
  | newMoveWith j a =>
    obtain ⟨o, ho, _, r, ha, _⟩ := env_get e (i := j) hpre
    refine wpA_withObj ho ?_
    refine wpA_mono (new _ _ _ _ (made_ok (a := a) hw e (wpV_copyOf hw wf r fun _ _ h1 h2 => ⟨h1, h2⟩))) ?_
    rintro r s' ⟨h1, h2, h3⟩
    exact ⟨_, ⟨rfl, h1⟩, h2, h3⟩
  | copyAssign i j =>
    obtain ⟨x, hx, _, rx, hxa, _⟩ := env_get e (i := i) hpre.1
    obtain ⟨o, ho, hl, ro, hoa, _⟩ := env_get e (i := j) hpre.2
    refine wpA_withObj hx (wpA_withObj ho (wpA_bind (wpA_mono (copyAssign_ok T hw P e hx ho hl) ?_)))
    rintro y s' ⟨h1, h2⟩
    refine wpA_pure ⟨_, ⟨rfl, rfl⟩, ?_, ?_⟩
    · show AEnvOk s' _ _ (if T.pocca then as.set i (as.getD j 0) else as)
      rw [hoa]; exact h2
    · show AskedOnly s.2 s'.2 (if T.pocca then [as.getD j 0] else [as.getD i 0])
      rw [hoa, hxa]; exact h1
  | moveAssign i j =>
    obtain ⟨x, hx, _, rx, hxa, _⟩ := env_get e (i := i) hpre.1
    obtain ⟨o, ho, hl, ro, hoa, _⟩ := env_get e (i := j) hpre.2.1
    refine wpA_withObj hx (wpA_withObj ho (wpA_bind (wpA_mono (moveAssign_ok T hw P e hpre.2.2 hx ho hl) ?_)))
    rintro y s' ⟨h1, _, h2⟩
    refine wpA_pure ⟨_, ⟨rfl, rfl⟩, ?_, ?_⟩
    · show AEnvOk s' _ _ (if T.pocma then as.set i (as.getD j 0) else as)
      rw [hoa]; exact h2
    · show AskedOnly s.2 s'.2 (if T.pocma ∨ as.getD i 0 = as.getD j 0 then [] else [as.getD i 0])
      rw [hoa, hxa]; exact h1
  | destroy i =>
    obtain ⟨x, hx, _⟩ := env_get e (i := i) hpre
    refine wpA_withObj hx (wpA_bind (wpA_bind (wpA_mono (destroy_ok hw e hx) ?_)))
    rintro _ s' ⟨h1, h2⟩
    exact wpA_pure (wpA_pure ⟨_, ⟨rfl, rfl⟩, h2, asked_same h1⟩)
  | member i op =>
    have ht : op.target = some i := hp
    obtain ⟨vs', h', e1, ok⟩ := C35_step_partial hw S P s.1 (xs.map AB.bv) ls op e.env hpre hlim
    obtain ⟨v, v', hv, rfl⟩ := target_inv ht e1
    have hi : i < xs.length := by
      have := (List.getElem?_eq_some_iff.1 hv).1
      simpa using this
    obtain ⟨x, hx, _, rx, hxa, _⟩ := env_get e (i := i) (by omega)
    refine wpA_withObj hx ?_
    rw [if_pos ht]
    refine wpA_bind (wpA_heap ⟨_, h', e1, ?_⟩)
    have hg : ((xs.map AB.bv).set i v')[i]? = some v' := Allocs.get_set hv
    dsimp only
    rw [hg]
    dsimp only
    refine wpA_bind (wpA_mono (settled hw e hx ok rfl) ?_)
    rintro _ s' ⟨h1, h2⟩
    refine wpA_pure ⟨_, ⟨rfl, rfl⟩, h2, ?_⟩
    show AskedOnly s.2 s'.2 [as.getD i 0]
    rw [hxa]
    exact h1
  | alg c =>
    have ht : c.isAlg = true := hp
    obtain ⟨vs', ans, h', ls', e1, h1, h2⟩ := C65_step_partial hw S P s.1 (xs.map AB.bv) ls c e.env hpre hlim
    have hc : ∀ op, c ≠ .vec op := by
      rintro op rfl
      cases ht
    have hvs := exec_alg hc e1
    unfold AOp.exec
    dsimp only
    rw [if_pos ht]
    refine wpA_bind (wpA_heap ⟨_, h', e1, ?_⟩)
    subst hvs
    exact wpA_pure ⟨ls', h1, ⟨h2, e.als, e.led⟩, asked_refl⟩

/-- C92: programs. -/
theorem C92_program (hw : 0 < w) (T : Traits) (S : ShiftSem w) (P : Policy) (s : Heap w × Ledger) (xs : List AB) (ls : List (List Bool))
    (as : List Nat) (ops : List (AOp w)) (e : AEnvOk s xs ls as) (hv : AValid S ops ls) :
    ∃ xs' ans s' ls' as' src, runAOps T S P xs ops s = .ok ((xs', ans), s') ∧ ASpecRun T ls as ops ls' as' ans src ∧ AEnvOk s' xs' ls' as' ∧
      AskedOnly s.2 s'.2 src := by
  induction ops generalizing s xs ls as with
  | nil => exact ⟨xs, [], s, ls, as, [], rfl, .nil ls as, e, asked_refl⟩
  | cons op ops ih =>
    obtain ⟨⟨v1, v2, v3⟩, v4⟩ := hv
    obtain ⟨xs1, a, s1, ls1, e1, p1, ok1, q1⟩ := C92_step hw T S P s xs ls as op e v1 v2 v3
    obtain ⟨xs2, ans, s2, ls2, as2, src, e2, p2, ok2, q2⟩ := ih s1 xs1 ls1 _ ok1 (v4 ls1 a p1)
    refine ⟨xs2, a :: ans, s2, ls2, as2, op.sources T as ++ src, ?_, .cons p1 p2, ok2, ?_⟩
    · unfold runAOps
      rw [runA_bind e1, runA_bind e2]
      rfl
    · exact asked_trans (asked_mono q1 fun _ h => List.mem_append_left _ h) (asked_mono q2 fun _ h => List.mem_append_right _ h)

/-- C92: a program without vectors, whose allocators have lent nothing. -/
theorem C92_start (h : Heap w) (hwf : h.WF) : AEnvOk (h, ⟨fun _ => none, []⟩) [] [] [] :=
  ⟨EnvOk.nil hwf, rfl, fun p a c => ⟨fun hh => (by cases hh), by rintro ⟨_, i, x, hx, _⟩; simp at hx⟩⟩

/-- C92: the specification determines lists, allocators, answers and the allocators that may be asked. -/
theorem C92_unique {T : Traits} {ls l1 l2 : List (List Bool)} {as a1 a2 s1 s2 : List Nat} {ops : List (AOp w)} {r1 r2 : List Ans}
    (h1 : ASpecRun T ls as ops l1 a1 r1 s1) (h2 : ASpecRun T ls as ops l2 a2 r2 s2) : l1 = l2 ∧ a1 = a2 ∧ r1 = r2 ∧ s1 = s2 := by
  induction h1 generalizing r2 s2 with
  | nil => cases h2; exact ⟨rfl, rfl, rfl, rfl⟩
  | cons p1 _ ih =>
    cases h2 with
    | cons q1 q2 =>
      obtain ⟨rfl, rfl⟩ := Call.Spec.unique p1 q1
      obtain ⟨rfl, rfl, rfl, rfl⟩ := ih q2
      exact ⟨rfl, rfl, rfl, rfl⟩

theorem valid_plain {S : ShiftSem w} {ops : List (AOp w)} {ls : List (List Bool)} (hv : AValid S ops ls) :
    AlongC (fun ls c => c.Pre ls ∧ c.Lim S ls) (ops.map AOp.plain) ls := by
  induction ops generalizing ls with
  | nil => trivial
  | cons op ops ih => exact ⟨hv.1.2, fun ls' a h => ih (hv.2 ls' a h)⟩

/-- C92: allocators change nothing a program sees: it ends with the lists and the answers of the program without them, on any heap, with any growth of
the vectors and any other allocator type. -/
theorem C92_same (hw : 0 < w) (T T' : Traits) (S : ShiftSem w) (P P' : Policy) (s s' : Heap w × Ledger) (xs xs' : List AB) (ls : List (List Bool))
    (as as' : List Nat) (h : Heap w) (vs : List BV) (ops : List (AOp w)) (e : AEnvOk s xs ls as) (e' : AEnvOk s' xs' ls as') (e0 : EnvOk h vs ls)
    (hv : AValid S ops ls) :
    ∃ ys ys' us t t' h1 ls1 ans b b', runAOps T S P xs ops s = .ok ((ys, ans), t) ∧ runAOps T' S P' xs' ops s' = .ok ((ys', ans), t') ∧
      runCalls S P vs (ops.map AOp.plain) h = .ok ((us, ans), h1) ∧ AEnvOk t ys ls1 b ∧ AEnvOk t' ys' ls1 b' ∧ EnvOk h1 us ls1 := by
  obtain ⟨ys, ans, t, ls1, b, _, r1, p1, ok1, _⟩ := C92_program hw T S P s xs ls as ops e hv
  obtain ⟨ys', ans', t', ls1', b', _, r2, p2, ok2, _⟩ := C92_program hw T' S P' s' xs' ls as' ops e' hv
  obtain ⟨us, ans2, h1, ls2, r3, p3, ok3⟩ := C65_program_partial hw S P h vs ls _ e0 (valid_plain hv)
  have plain : ∀ {T : Traits} {ls l1 : List (List Bool)} {as a1 s1 : List Nat} {ops : List (AOp w)} {r1 : List Ans},
      ASpecRun T ls as ops l1 a1 r1 s1 → SpecRun ls (ops.map AOp.plain) l1 r1 := by
    intro T ls l1 as a1 s1 ops r1 hr
    induction hr with
    | nil => exact .nil _
    | cons p _ ih => exact .cons p ih
  obtain ⟨rfl, rfl⟩ := SpecRun.unique (plain p1) p3
  obtain ⟨rfl, rfl⟩ := SpecRun.unique (plain p1) (plain p2)
  exact ⟨ys, ys', us, t, t', h1, ls1, ans, b, b', r1, r2, r3, ok1, ok2, ok3⟩

/-- C92: no storage is kept: when all vectors are empty of storage or gone, nothing is lent; in particular after destroying all. -/
theorem C92_returned (hw : 0 < w) (T : Traits) (S : ShiftSem w) (P : Policy) (s : Heap w × Ledger) (xs : List AB) (ls : List (List Bool))
    (as : List Nat) (e : AEnvOk s xs ls as) :
    ∃ xs' ans s', runAOps T S P xs ((List.range xs.length).map AOp.destroy) s = .ok ((xs', ans), s') ∧ ∀ p, s'.2.lent p = none := by
  have key : ∀ (n : Nat) (k : Nat) (s : Heap w × Ledger) (xs : List AB) (ls : List (List Bool)), AEnvOk s xs ls as → k + n = xs.length →
      (∀ i x, i < k → xs[i]? = some x → x.bv.vec.cap = 0) →
      ∃ xs' ans s', runAOps T S P xs ((List.range' k n).map AOp.destroy) s = .ok ((xs', ans), s') ∧ ∀ p, s'.2.lent p = none := by
    intro n
    induction n with
    | zero =>
      intro k s xs ls e hk h0
      refine ⟨xs, [], s, rfl, ?_⟩
      intro p
      cases hl : s.2.lent p with
      | none => rfl
      | some ac =>
        obtain ⟨hc, i, x, hx, _, _, h3⟩ := (e.led p ac.1 ac.2).1 hl
        have := h0 i x (by have := (List.getElem?_eq_some_iff.1 hx).1; omega) hx
        omega
    | succ n ih =>
      intro k s xs ls e hk h0
      have hlen : xs.length = ls.length := by have := e.env.len; simpa using this
      obtain ⟨x, hx, _⟩ := env_get e (i := k) (by omega)
      obtain ⟨_, s1, e1, _, e2⟩ := destroy_ok hw e hx
      obtain ⟨xs', ans, s', e3, h3⟩ := ih (k + 1) s1 (xs.set k ⟨x.al, BV.default⟩) (ls.set k []) e2 (by rw [List.length_set]; omega) (by
        intro i y hi hy
        rw [List.getElem?_set] at hy
        split_ifs at hy with h1 h2
        · cases hy; rfl
        · exact h0 i y (by omega) hy)
      refine ⟨xs', .unit :: ans, s', ?_, h3⟩
      rw [List.range'_succ, List.map_cons]
      unfold runAOps
      have hd : (AOp.destroy k : AOp w).exec T S P xs s = .ok ((xs.set k ⟨x.al, BV.default⟩, .unit), s1) := by
        show withObj xs k _ s = _
        unfold withObj
        rw [hx]
        show ((x.words.destroy >>= fun _ => (pure (⟨x.al, BV.default⟩ : AB) : AV w AB)) >>= fun x' => pure (xs.set k x', Ans.unit)) s = _
        rw [runA_bind (by rw [runA_bind e1]; rfl)]
        rfl
      rw [runA_bind hd, runA_bind e3]
      rfl
  rw [List.range_eq_range']
  exact key xs.length 0 s xs ls e (by omega) (by intro i x hi; omega)

/-! ### What the code does with an allocator argument -/

/-- C92: the constructors from a range do not keep the allocator they are given, unless it propagates on move assignment: the words end up in storage
of `Allocator()`. The constructors from an initialiser list keep it. -/
theorem C92_range_argument (hw : 0 < w) (T : Traits) (S : ShiftSem w) (P : Policy) (s : Heap w × Ledger) (xs : List AB) (ls : List (List Bool))
    (as : List Nat) (e : AEnvOk s xs ls as) (l : List Bool) (a : Nat) :
    (∃ x s', (AOp.newBoolRange l (some a)).exec T S P xs s = .ok ((xs ++ [x], .unit), s') ∧ Rep s'.1 x.bv l ∧ x.al = (if T.pocma then a else T.dflt)) ∧
    (∃ x s', (AOp.newBoolList l (some a)).exec T S P xs s = .ok ((xs ++ [x], .unit), s') ∧ Rep s'.1 x.bv l ∧ x.al = a) := by
  have hlen : xs.length = ls.length := by have := e.env.len; simpa using this
  have fin : ∀ {b : Nat} {x : AB} {s' : Heap w × Ledger}, AEnvOk s' (xs ++ [x]) (ls ++ [l]) (as ++ [b]) → Rep s'.1 x.bv l ∧ x.al = b := by
    intro b x s' ok
    refine ⟨ok.env.rep xs.length _ _ (map_get (get_concat _ _)) (by rw [hlen]; exact get_concat _ _), ?_⟩
    have := ok.als
    rw [List.map_append, e.als] at this
    simpa using this
  constructor
  · obtain ⟨x, s', h1, _, h2⟩ := ofBoolRange_ok T S hw P l a e
    refine ⟨x, s', ?_, fin h2⟩
    show (addObj xs (AB.ofBoolRange T S P l a)) s = _
    unfold addObj
    rw [runA_bind h1]
    rfl
  · obtain ⟨x, s', h1, _, h2⟩ := ofBoolList_ok S hw P l a e
    refine ⟨x, s', ?_, fin h2⟩
    show (addObj xs (AB.ofBoolList S P l a)) s = _
    unfold addObj
    rw [runA_bind h1]
    rfl

/-- C92: the move constructor asks the allocator for storage, for every vector that has a word, and leaves its source as it is. The move constructor of
`std::vector` does neither. -/
theorem C92_move_constructor (hw : 0 < w) (T : Traits) (S : ShiftSem w) (P : Policy) (s : Heap w × Ledger) (xs : List AB) (ls : List (List Bool))
    (as : List Nat) (e : AEnvOk s xs ls as) (j : Nat) (o : AB) (ho : xs[j]? = some o) (h0 : 0 < o.bv.vec.size) :
    ∃ x s' n, (AOp.newMove j).exec T S P xs s = .ok ((xs ++ [x], .unit), s') ∧ s'.2.asked = (T.onCopy o.al, n) :: s.2.asked ∧ 0 < n ∧
      AEnvOk s' (xs ++ [x]) (ls ++ [Op.at' ls j]) (as ++ [T.onCopy o.al]) := by
  have hlen : xs.length = ls.length := by have := e.env.len; simpa using this
  obtain ⟨o', ho', _, r, _⟩ := env_get e (i := j) (by rw [← hlen]; exact (List.getElem?_eq_some_iff.1 ho).1)
  rw [ho] at ho'
  cases ho'
  obtain ⟨x, s', h1, _, h2⟩ := made_ok (a := T.onCopy o.al) hw e (wpV_copyOf (P := P) hw e.env.wf r fun _ _ h1 h2 => ⟨h1, h2⟩)
  refine ⟨x, s', P.alloc o.bv.vec.size, ?_, ?_, ?_, h2⟩
  · show withObj xs j _ s = _
    unfold withObj
    rw [ho]
    show (addObj xs (AB.moveOf T P o)) s = _
    unfold addObj
    rw [runA_bind (show AB.moveOf T P o s = _ from h1)]
    rfl
  · have hc : ¬ P.alloc o.bv.vec.size = 0 := by have := P.alloc_ok o.bv.vec.size; omega
    unfold AB.made at h1
    rw [runA_bind (show inHeap (BV.copyOf P o.bv) s = .ok (_, (_, s.2)) from rfl), runA_bind (take_pos hc)] at h1
    cases h1
    rfl
  · have := P.alloc_ok o.bv.vec.size; omega

/-! ### The hypotheses can be met -/

/-- An allocator type with a state that never propagates. -/
def exTraits : Traits := ⟨0, id, false, false, true⟩

/-- Vectors of two allocators, assigned to each other by copy and by move. -/
def exAOps : List (AOp 8) :=
  [.newBoolList [true, false, true] (some 5), .newBoolRange [false, true] (some 7), .newMoveWith 0 9, .moveAssign 1 0, .member 1 (.push 1 true),
    .copyAssign 2 1, .alg (.size 2)]

theorem exAValid (S : ShiftSem 8) : AValid S exAOps [] := by
  refine ⟨⟨trivial, trivial, trivial, .inl trivial⟩, ?_⟩
  rintro _ _ ⟨rfl, rfl⟩
  refine ⟨⟨trivial, trivial, trivial, .inl trivial⟩, ?_⟩
  rintro _ _ ⟨rfl, rfl⟩
  refine ⟨⟨trivial, (by decide : 0 < 2), trivial, .inl trivial⟩, ?_⟩
  rintro _ _ ⟨rfl, rfl⟩
  refine ⟨⟨trivial, (by decide : 1 < 3 ∧ 0 < 3 ∧ 1 ≠ 0), trivial, .inl trivial⟩, ?_⟩
  rintro _ _ ⟨rfl, rfl⟩
  refine ⟨⟨rfl, (by decide : 1 < 3), trivial, .inl trivial⟩, ?_⟩
  rintro _ _ ⟨rfl, rfl⟩
  refine ⟨⟨trivial, (by decide : 2 < 3 ∧ 1 < 3), trivial, .inl trivial⟩, ?_⟩
  rintro _ _ ⟨rfl, rfl⟩
  exact ⟨⟨rfl, (by decide : 2 < 3), trivial⟩, fun _ _ _ => trivial⟩

/-- The vectors of the example have the allocators 5, 0 (not 7) and 9. -/
example (S : ShiftSem 8) (P : Policy) : ∃ xs' s', runAOps exTraits S P [] exAOps (⟨fun _ => none, 0⟩, ⟨fun _ => none, []⟩) =
      .ok ((xs', [.unit, .unit, .unit, .unit, .unit, .unit, .num 4]), s') ∧
    AEnvOk s' xs' [[], [true, false, true, true], [true, false, true, true]] [5, 0, 9] := by
  obtain ⟨xs', ans, s', ls', as', src, h1, h2, h3, _⟩ := C92_program (by decide) exTraits S P (⟨fun _ => none, 0⟩, ⟨fun _ => none, []⟩) [] [] [] exAOps
    (C92_start _ ⟨by decide, fun _ _ => rfl⟩) (exAValid S)
  have h4 : ASpecRun exTraits [] [] exAOps [[], [true, false, true, true], [true, false, true, true]] [5, 0, 9]
      [.unit, .unit, .unit, .unit, .unit, .unit, .num 4] _ :=
    .cons ⟨rfl, rfl⟩ (.cons ⟨rfl, rfl⟩ (.cons ⟨rfl, rfl⟩ (.cons ⟨rfl, rfl⟩ (.cons ⟨rfl, rfl⟩ (.cons ⟨rfl, rfl⟩ (.cons ⟨rfl, rfl⟩ (.nil _ _)))))))
  obtain ⟨rfl, rfl, rfl, _⟩ := C92_unique h2 h4
  exact ⟨xs', s', h1, h3⟩

/-- Storage given to an allocator that has not lent it is noticed. -/
example (h : Heap 8) : give 1 ⟨4, 1, 2⟩ (h, ⟨fun p => if p = 4 then some (0, 2) else none, []⟩) = .error .wrongOwner := rfl

end BitLib
