import Verif.Lemmas.Construct
/- Lemmas for C100: an initialisation agrees with its specification. -/
namespace BitLib.Construct
variable {w : Nat}

/-- The initialisation `r` of these arguments fails, runs into an invalid range or builds what `c` says. -/
def Agrees (S : ShiftSem w) (P : Policy) (args : List (Arg w)) (c : Except Err (Option (Content w))) (r : Except Err Sel) : Prop :=
  match c with
  | .error e => r = .error e
  | .ok none => ∃ s, r = .ok s ∧ ∀ h, run S P s args h = .error (.ub .badRange)
  | .ok (some c) => ∃ s, r = .ok s ∧ ∀ h l, h.WF → c.Is h l →
      ∃ v h', run S P s args h = .ok (v, h') ∧ VStep h Vec.empty h' v.vec ∧ Rep h' v l

/-- The checks after the selection. -/
def finish (L : Lang) (f : Form) (args : List (Arg w)) (s : Sel) : Except Err Sel :=
  if s.explicitErr f then .error .explicit
  else if s.narrows L f args then .error .narrowing
  else match s.bodyErr args with
    | some e => .error e
    | none => .ok s

theorem compile_eq (L : Lang) (f : Form) (args : List (Arg w)) : compile L f args = (select L f args).bind (finish L f args) := rfl

/-! ### Runs -/

variable {S : ShiftSem w} {P : Policy}

theorem ofStringAlloc_ok (hw : 0 < w) {h : Heap w} (hwf : h.WF) (s : List Char) :
    ∃ v h', ofStringAlloc S P s h = .ok (v, h') ∧ VStep h Vec.empty h' v.vec ∧ Rep h' v (digitsOf s) := by
  show wpV _ h fun v h' => VStep h Vec.empty h' v.vec ∧ Rep h' v (digitsOf s)
  unfold ofStringAlloc
  rw [wpV_bind]
  refine wpV_ofString S hw hwf fun t h1 s1 r1 => ?_
  rw [wpV_bind]
  refine wpV_copyOf hw s1.wf r1 fun v h2 s2 r2 => ?_
  rw [wpV_bind]
  have s3 := release_ok hw (v := t.vec) s2.wf
  have rt := r1.frame s2 (.inl rfl)
  refine ⟨_, _, rfl, wpV_pure ?_⟩
  have hsep : Sep w t.vec v.vec := by
    rcases rt.2 with h | h | h | h
    · exact .inr (.inl h)
    · exact .inl h
    · exact .inr (.inr (.inr h))
    · exact .inr (.inr (.inl h))
  refine ⟨⟨s3.wf, ?_, ?_, ?_⟩, (r2.frame s3 hsep).1⟩
  · have := s1.next; have := s2.next; have := s3.next; omega
  · intro i hi _
    have hv : ∀ i : Int, i < Vec.empty.ptr * (w : Int) ∨ Vec.empty.ptr * (w : Int) + (Vec.empty.cap : Int) * (w : Int) ≤ i := by
      intro i; simp only [Vec.empty]; push_cast; omega
    have n1 := s1.next; have n2 := s2.next
    rw [s3.frame i (by omega) ?_, s2.frame i (by omega) (hv i), s1.frame i hi (hv i)]
    rcases s1.region with ⟨e1, e2⟩ | hge
    · rw [e1, e2]; exact hv i
    · left; omega
  · rcases s2.region with hh | hge
    · exact .inl hh
    · right; have := s1.next; omega

theorem between_ok {α : Type} [DecidableEq α] {l l' : List α} {p q : Nat} (hb : l = l' ∧ p ≤ q ∧ q ≤ l.length) :
    (between l p l' q : V w (List α)) = pure ((l.take q).drop p) := by
  unfold between; exact if_pos hb

theorem runRange_ok (hw : 0 < w) (s t : Src w) (c : Content w) (hc : between? s t = .ok (some c)) (h : Heap w) (l : List Bool) (hwf : h.WF) (hi : c.Is h l) :
    ∃ v h', runRange S P s t h = .ok (v, h') ∧ VStep h Vec.empty h' v.vec ∧ Rep h' v l := by
  cases s with
  | bools l1 p =>
    cases t with
    | bools l2 q =>
      simp only [between?, Except.ok.injEq, slice?] at hc
      split at hc
      · rename_i hb
        simp only [id, Option.some.injEq] at hc
        subst hc
        simp only [runRange]
        rw [between_ok hb, pure_bind]
        cases hi
        exact wpV_ofBoolRange S hw hwf fun _ _ s r => ⟨s, r⟩
      · cases hc
    | _ => cases hc
  | words l1 p =>
    cases t with
    | words l2 q =>
      simp only [between?, Except.ok.injEq, slice?] at hc
      split at hc
      · rename_i hb
        simp only [Option.some.injEq] at hc
        subst hc
        simp only [runRange]
        rw [between_ok hb, pure_bind]
        cases hi
        exact wpV_ofWords hw hwf fun _ _ s r => ⟨s, r⟩
      · cases hc
    | _ => cases hc
  | other => cases hc

theorem runRange_bad (s t : Src w) (hc : between? s t = .ok none) (h : Heap w) : runRange S P s t h = .error (.ub .badRange) := by
  cases s <;> cases t <;> simp only [between?, Except.ok.injEq, slice?, reduceCtorEq] at hc
  all_goals
    split at hc
    · cases hc
    · rename_i hb
      simp only [runRange, between, if_neg hb]
      rfl

/-! ### One argument and no argument -/

theorem finish_paren (L : Lang) (args : List (Arg w)) (s : Sel) (hs : ∃ c, s = .ctor c) :
    finish L .paren args s = match s.bodyErr args with | some e => .error e | none => .ok s := by
  obtain ⟨c, rfl⟩ := hs
  simp [finish, Sel.explicitErr, Sel.narrows]

theorem agrees0 (f : Form) (L : Lang) : Agrees S P [] (.ok (some (.bits []))) (finish L f ([] : List (Arg w)) (.ctor .default)) := by
  refine ⟨.ctor .default, ?_, ?_⟩
  · simp [finish, Sel.explicitErr, Ctor.explicit, Sel.narrows, Sel.bodyErr]
  · intro h l hwf hi
    cases hi
    exact ⟨_, _, rfl, wpV_default hwf⟩

theorem agrees1 (hw : 0 < w) (L : Lang) (a : Arg w) :
    Agrees S P [a] (parenContent [a]) ((sel1 a.ty).bind fun c => finish L .paren [a] (.ctor c)) := by
  cases a with
  | bool b => exact ⟨.ctor .count, rfl, fun h l hwf hi => by obtain ⟨hn, rfl⟩ := hi; exact wpV_ofCount hw hwf hn fun _ _ s r => ⟨s, r⟩⟩
  | int t n c => exact ⟨.ctor .count, rfl, fun h l hwf hi => by obtain ⟨hn, rfl⟩ := hi; exact wpV_ofCount hw hwf hn fun _ _ s r => ⟨s, r⟩⟩
  | bitValue b => rfl
  | bitRef k b => rfl
  | charPtr s => exact ⟨.ctor .string, rfl, fun h l hwf hi => by cases hi; exact wpV_ofString S hw hwf fun _ _ s r => ⟨s, r⟩⟩
  | ptr s k => rfl
  | iter s k => rfl
  | bitIter t i => rfl
  | string s => exact ⟨.ctor .string, rfl, fun h l hwf hi => by cases hi; exact wpV_ofString S hw hwf fun _ _ s r => ⟨s, r⟩⟩
  | stringView s => exact ⟨.ctor .string, rfl, fun h l hwf hi => by cases hi; exact wpV_ofString S hw hwf fun _ _ s r => ⟨s, r⟩⟩
  | alloc => exact ⟨.ctor .alloc, rfl, fun h l hwf hi => by cases hi; exact ⟨_, _, rfl, wpV_default hwf⟩⟩
  | vec r v =>
    cases r with
    | false => exact ⟨.ctor .copy, rfl, fun h l hwf hi => wpV_copyOf hw hwf hi fun _ _ s r => ⟨s, r⟩⟩
    | true => exact ⟨.ctor .move, rfl, fun h l hwf hi => wpV_copyOf hw hwf hi fun _ _ s r => ⟨s, r⟩⟩
  | listBit l => rfl
  | listBool l => exact ⟨.ctor .boolList, rfl, fun h l hwf hi => by cases hi; exact wpV_ofBoolList S hw hwf fun _ _ s r => ⟨s, r⟩⟩
  | listWord l => exact ⟨.ctor .wordList, rfl, fun h l hwf hi => by cases hi; exact wpV_ofWords hw hwf fun _ _ s r => ⟨s, r⟩⟩
  | cls k => rfl

/-! ### Two arguments -/

theorem rangeConstructorOk_eq (t : ItTy) : rangeConstructorOk t = Copyable t := by
  simp [rangeConstructorOk, Alg2.compiles, vecIt, ItTy.const, WordIt.const, getWordOk, advanceOk, Copyable]

def alArgs (al : Bool) : List (Arg w) := if al then [.alloc] else []

theorem agrees2 (hw : 0 < w) (L : Lang) (a b : Arg w) (al : Bool) :
    Agrees S P (a :: b :: alArgs al) (pairContent a b al) ((sel2 a.ty b.ty al).bind fun c => finish L .paren (a :: b :: alArgs al) (.ctor c)) := by
  unfold pairContent sel2
  by_cases he : a.ty.decay = b.ty.decay
  · rw [if_pos he, if_pos he]
    have hbody : ∀ c, finish L .paren (a :: b :: alArgs al) (.ctor c) =
        match (Sel.ctor c).bodyErr (a :: b :: alArgs al) with | some e => .error e | none => .ok (.ctor c) := fun c => finish_paren L _ _ ⟨c, rfl⟩
    simp only [hbody]
    have hrange : ∀ s t : Src w, s.elem = t.elem → ∀ (r : Sel), (∀ h, run S P r (a :: b :: alArgs al) h = runRange S P s t h) →
        Agrees S P (a :: b :: alArgs al) (between? s t)
          (match (if s.elem = .other then some Err.body else none) with | some e => .error e | none => .ok r) := by
      intro s t hst r hr
      cases hc : between? s t with
      | error e =>
        cases s <;> cases t <;> simp [Src.elem] at hst <;> simp [between?] at hc
        subst hc; simp [Src.elem, Agrees]
      | ok c =>
        have hs : s.elem ≠ .other := by cases s <;> cases t <;> simp [between?] at hc <;> simp [Src.elem]
        rw [if_neg hs]
        cases c with
        | none => exact ⟨_, rfl, fun h => by rw [hr]; exact runRange_bad s t hc h⟩
        | some c => exact ⟨_, rfl, fun h l hwf hi => by rw [hr]; exact runRange_ok hw s t c hc h l hwf hi⟩
    cases a <;> cases b <;> simp only [Arg.ty, Ty.decay, reduceCtorEq, Ty.ptr.injEq, Ty.iter.injEq, Ty.bitIter.injEq, Ty.list.injEq] at he <;> try rfl
    case ptr.ptr s k t k' => exact hrange s t he.1 (.ctor .range) fun h => rfl
    case iter.iter s k t k' => exact hrange s t he.1 (.ctor .range) fun h => rfl
    case bitIter.bitIter t i t' j =>
      simp only [Sel.bodyErr, rangeConstructorOk_eq, Arg.ty]
      cases hc : Copyable t with
      | true => exact ⟨.ctor .bitRange, rfl, fun h l hwf hi => wpV_ofBits S hw hwf hi fun _ _ s r => ⟨s, r⟩⟩
      | false => rfl
  · rw [if_neg he, if_neg he]
    cases b with
    | bitValue x =>
      cases a with
      | bool b => exact ⟨.ctor .countVal, rfl, fun h l hwf hi => by obtain ⟨hn, rfl⟩ := hi; exact wpV_ofCountVal hw hwf hn fun _ _ s r => ⟨s, r⟩⟩
      | int t n c => exact ⟨.ctor .countVal, rfl, fun h l hwf hi => by obtain ⟨hn, rfl⟩ := hi; exact wpV_ofCountVal hw hwf hn fun _ _ s r => ⟨s, r⟩⟩
      | vec r v => cases r <;> rfl
      | _ => rfl
    | bitRef k x =>
      cases a with
      | bool b => exact ⟨.ctor .countVal, rfl, fun h l hwf hi => by obtain ⟨hn, rfl⟩ := hi; exact wpV_ofCountVal hw hwf hn fun _ _ s r => ⟨s, r⟩⟩
      | int t n c => exact ⟨.ctor .countVal, rfl, fun h l hwf hi => by obtain ⟨hn, rfl⟩ := hi; exact wpV_ofCountVal hw hwf hn fun _ _ s r => ⟨s, r⟩⟩
      | vec r v => cases r <;> rfl
      | _ => rfl
    | alloc =>
      cases al with
      | true =>
        cases a with
        | vec r v => cases r <;> rfl
        | _ => rfl
      | false =>
        cases a with
        | bool b => exact ⟨.ctor .count, rfl, fun h l hwf hi => by obtain ⟨hn, rfl⟩ := hi; exact wpV_ofCount hw hwf hn fun _ _ s r => ⟨s, r⟩⟩
        | int t n c => exact ⟨.ctor .count, rfl, fun h l hwf hi => by obtain ⟨hn, rfl⟩ := hi; exact wpV_ofCount hw hwf hn fun _ _ s r => ⟨s, r⟩⟩
        | vec r v =>
          cases r with
          | false => rfl
          | true => exact ⟨.ctor .moveAlloc, rfl, fun h l hwf hi => wpV_copyOf hw hwf hi fun _ _ s r => ⟨s, r⟩⟩
        | stringView s => exact ⟨.ctor .moveAlloc, rfl, fun h l hwf hi => by cases hi; exact ofStringAlloc_ok hw hwf s⟩
        | listBool l => exact ⟨.ctor .boolList, rfl, fun h l hwf hi => by cases hi; exact wpV_ofBoolList S hw hwf fun _ _ s r => ⟨s, r⟩⟩
        | listWord l => exact ⟨.ctor .wordList, rfl, fun h l hwf hi => by cases hi; exact wpV_ofWords hw hwf fun _ _ s r => ⟨s, r⟩⟩
        | _ => rfl
    | _ =>
      cases a with
      | vec r v => cases r <;> rfl
      | _ => rfl

/-! ### The forms -/

theorem agrees_paren (hw : 0 < w) (L : Lang) (args : List (Arg w)) :
    Agrees S P args (parenContent args) ((resolve L allCtors (args.map Arg.ty)).bind fun c => finish L .paren args (.ctor c)) := by
  match args with
  | [] => exact agrees0 .paren L
  | [a] => rw [List.map, List.map, resolve1]; exact agrees1 hw L a
  | [a, b] => exact (resolve2 L a.ty b.ty false) ▸ agrees2 hw L a b false
  | a :: b :: c :: as =>
    by_cases h : c.ty = .alloc ∧ as = []
    · obtain ⟨h1, rfl⟩ := h
      have hc : c = .alloc := by cases c <;> simp [Arg.ty] at h1; rfl
      subst hc
      exact (resolve2 L a.ty b.ty true) ▸ agrees2 hw L a b true
    · have hn : resolve L allCtors ((a :: b :: c :: as).map Arg.ty) = .error .noMatch := by
        refine resolve3 L a.ty b.ty c.ty (as.map Arg.ty) ?_
        by_cases h1 : c.ty = .alloc
        · right; intro h2; exact h ⟨h1, by simpa using h2⟩
        · exact .inl h1
      rw [hn]
      have : parenContent (a :: b :: c :: as) = .error .noMatch := by
        unfold parenContent
        split <;> simp_all [Arg.ty]
      rw [this]; rfl

theorem agrees_eq (hw : 0 < w) (L : Lang) (args : List (Arg w)) : Agrees S P args (eqContent args) (compile L .eq args) := by
  match args with
  | [] => rfl
  | a :: b :: as => 
    have : eqContent (a :: b :: as) = .error .noMatch := by unfold eqContent; split <;> simp_all
    rw [this]; rfl
  | [a] =>
    cases a with
    | bool b => rfl
    | int t n c => rfl
    | bitValue b => rfl
    | bitRef k b => rfl
    | charPtr s => rfl
    | ptr s k => rfl
    | iter s k => rfl
    | bitIter t i => rfl
    | string s => rfl
    | stringView s => exact ⟨.ctor .string, rfl, fun h l hwf hi => by cases hi; exact wpV_ofString S hw hwf fun _ _ s r => ⟨s, r⟩⟩
    | alloc => rfl
    | vec r v =>
      cases r with
      | false => exact ⟨.ctor .copy, rfl, fun h l hwf hi => wpV_copyOf hw hwf hi fun _ _ s r => ⟨s, r⟩⟩
      | true => exact ⟨.ctor .move, rfl, fun h l hwf hi => wpV_copyOf hw hwf hi fun _ _ s r => ⟨s, r⟩⟩
    | listBit l => rfl
    | listBool l => exact ⟨.ctor .boolList, rfl, fun h l hwf hi => by cases hi; exact wpV_ofBoolList S hw hwf fun _ _ s r => ⟨s, r⟩⟩
    | listWord l => exact ⟨.ctor .wordList, rfl, fun h l hwf hi => by cases hi; exact wpV_ofWords hw hwf fun _ _ s r => ⟨s, r⟩⟩
    | cls k => rfl

/-- In braces the checks that parentheses do not make come first. -/
theorem finish_brace (L : Lang) (f : Form) (args : List (Arg w)) (c : Ctor) (he : (Sel.ctor c).explicitErr f = false) (hn : (Sel.ctor c).narrows L f args = false) :
    finish L f args (.ctor c) = finish L .paren args (.ctor c) := by
  rw [finish_paren L args _ ⟨c, rfl⟩]
  simp [finish, he, hn]

/-- No check applies to constructors other than those with a count and the one from an allocator. -/
theorem finish_free (L : Lang) (f : Form) (args : List (Arg w)) (c : Ctor) (h : c ≠ .count ∧ c ≠ .countVal ∧ c ≠ .alloc) :
    finish L f args (.ctor c) = finish L .paren args (.ctor c) := by
  refine finish_brace L f args c ?_ ?_
  · obtain ⟨h1, h2, h3⟩ := h
    cases c <;> simp_all [Sel.explicitErr, Ctor.explicit]
  · obtain ⟨h1, h2, h3⟩ := h
    simp [Sel.narrows, h1, h2]

theorem IntTy.fits_refl (t : IntTy) : t.fits t = true := by
  unfold IntTy.fits; cases t.signed <;> simp

theorem words_not_narrow {L : Lang} (hL : L.Ok) (a : Arg w) (h : a.isWord L = true) : a.narrowsInt L.word = false := by
  cases a <;> simp [Arg.isWord] at h
  simp only [Arg.narrowsInt]
  rcases h with rfl | h
  · simp [IntTy.fits_refl]
  · simp [hL.promotes _ _ h]

theorem sel1_free (a : Arg w) (h1 : a.scalar = false) (h2 : a.ty ≠ .alloc) (c : Ctor) (hc : sel1 a.ty = .ok c) : c ≠ .count ∧ c ≠ .countVal ∧ c ≠ .alloc := by
  cases a with
  | bool b => simp [Arg.scalar] at h1
  | int t n k => simp [Arg.scalar] at h1
  | charPtr s => simp [Arg.scalar] at h1
  | alloc => simp [Arg.ty] at h2
  | vec r v => cases r <;> cases hc <;> simp
  | _ => cases hc <;> simp

theorem sel2_cases (a b : Arg w) (al : Bool) (c : Ctor) (hc : sel2 a.ty b.ty al = .ok c) :
    (c = .count → a.number?.isSome = true ∧ b = .alloc ∧ al = false) ∧ (c = .countVal → a.number?.isSome = true ∧ b.bit?.isSome = true) ∧ c ≠ .alloc := by
  unfold sel2 at hc
  split at hc
  · split at hc <;> cases hc <;> simp
  · cases b with
    | alloc =>
      cases al with
      | true =>
        cases a with
        | vec r v => cases r <;> cases hc
        | _ => cases hc
      | false =>
        cases a with
        | vec r v => cases r <;> cases hc <;> simp
        | _ => cases hc <;> simp [Arg.number?]
    | bitValue x =>
      cases a with
      | vec r v => cases r <;> cases hc
      | _ => cases hc <;> simp [Arg.number?, Arg.bit?]
    | bitRef k x =>
      cases a with
      | vec r v => cases r <;> cases hc
      | _ => cases hc <;> simp [Arg.number?, Arg.bit?]
    | _ =>
      cases a with
      | vec r v => cases r <;> cases hc
      | _ => cases hc

theorem sel2_count (a : Arg w) (h : a.number?.isSome = true) : sel2 a.ty (Arg.alloc : Arg w).ty false = .ok .count := by
  cases a <;> simp [Arg.number?] at h <;> rfl

theorem sel2_countVal (a b : Arg w) (al : Bool) (ha : a.number?.isSome = true) (hb : b.bit?.isSome = true) : sel2 a.ty b.ty al = .ok .countVal := by
  cases a <;> simp [Arg.number?] at ha <;> cases b <;> simp [Arg.bit?] at hb <;> rfl

theorem narrows_number (a : Arg w) (u : IntTy) (h : a.narrowsInt u = true) : a.number?.isSome = true := by
  cases a <;> simp [Arg.narrowsInt] at h <;> rfl

theorem resolve2' (L : Lang) (a b : Arg w) (al : Bool) : resolve L allCtors ((a :: b :: alArgs al).map Arg.ty) = sel2 a.ty b.ty al := by
  rw [← resolve2 L]; cases al <;> rfl

/-- Two arguments in braces. -/
theorem agrees_brace2 (hw : 0 < w) (L : Lang) (f : Form) (hf : f = .brace ∨ f = .eqBrace) (a b : Arg w) (al : Bool) :
    Agrees S P (a :: b :: alArgs al)
      (if f = .eqBrace ∧ a.number?.isSome ∧ b.ty = .alloc ∧ al = false then .error .explicit
       else if (b.bit?.isSome ∨ (b.ty = .alloc ∧ al = false)) ∧ a.narrowsInt L.size then .error .narrowing
       else pairContent a b al)
      ((sel2 a.ty b.ty al).bind fun c => finish L f (a :: b :: alArgs al) (.ctor c)) := by
  by_cases h1 : f = .eqBrace ∧ a.number?.isSome ∧ b.ty = .alloc ∧ al = false
  · rw [if_pos h1]
    obtain ⟨rfl, ha, hb, rfl⟩ := h1
    have : b = .alloc := by cases b <;> simp [Arg.ty] at hb; rfl
    subst this
    rw [sel2_count a ha]
    simp [Agrees, Except.bind, finish, Sel.explicitErr, Ctor.explicit]
  rw [if_neg h1]
  by_cases h2 : (b.bit?.isSome ∨ (b.ty = .alloc ∧ al = false)) ∧ a.narrowsInt L.size
  · rw [if_pos h2]
    obtain ⟨hb, hn⟩ := h2
    have ha := narrows_number a _ hn
    have hff : (f == .brace || f == .eqBrace) = true := by rcases hf with rfl | rfl <;> rfl
    rcases hb with hb | ⟨hb, rfl⟩
    · rw [sel2_countVal a b al ha hb]
      simp only [Except.bind, finish, Sel.explicitErr, Ctor.explicit, Sel.narrows, hff]
      simp [Agrees, hn]
    · have : b = .alloc := by cases b <;> simp [Arg.ty] at hb; rfl
      subst this
      have hfe : f = .brace := by
        rcases hf with rfl | rfl
        · rfl
        · exact absurd ⟨rfl, ha, rfl, rfl⟩ h1
      subst hfe
      rw [sel2_count a ha]
      simp [Agrees, hn, Except.bind, finish, Sel.explicitErr, Sel.narrows]
  rw [if_neg h2]
  have key : ((sel2 a.ty b.ty al).bind fun c => finish L f (a :: b :: alArgs al) (.ctor c)) =
      (sel2 a.ty b.ty al).bind fun c => finish L .paren (a :: b :: alArgs al) (.ctor c) := by
    cases hc : sel2 a.ty b.ty al with
    | error e => rfl
    | ok c =>
      obtain ⟨k1, k2, k3⟩ := sel2_cases a b al c hc
      refine finish_brace L f _ c ?_ ?_
      · by_cases hcc : c = .count
        · obtain ⟨ha, hb, hal⟩ := k1 hcc
          have hfe : f ≠ .eqBrace := fun e => h1 ⟨e, ha, by rw [hb]; rfl, hal⟩
          simp [Sel.explicitErr, hfe]
        · cases c <;> simp_all [Sel.explicitErr, Ctor.explicit]
      · by_cases hcc : c = .count
        · obtain ⟨ha, hb, hal⟩ := k1 hcc
          have hn : a.narrowsInt L.size = false := by
            cases hx : a.narrowsInt L.size with
            | false => rfl
            | true => exact absurd ⟨.inr ⟨by rw [hb]; rfl, hal⟩, hx⟩ h2
          simp [Sel.narrows, hn]
        · by_cases hcv : c = .countVal
          · obtain ⟨ha, hb⟩ := k2 hcv
            have hn : a.narrowsInt L.size = false := by
              cases hx : a.narrowsInt L.size with
              | false => rfl
              | true => exact absurd ⟨.inl hb, hx⟩ h2
            simp [Sel.narrows, hn]
          · simp [Sel.narrows, hcc, hcv]
  rw [key]
  exact agrees2 hw L a b al

theorem isAlloc_eq (a : Arg w) : a.isAlloc = decide (a.ty = .alloc) := by cases a <;> rfl

theorem agrees_brace (hw : 0 < w) {L : Lang} (hL : L.Ok) (eq : Bool) (args : List (Arg w)) :
    Agrees S P args (braceContent L eq args) (compile L (if eq then .eqBrace else .brace) args) := by
  obtain ⟨f, hf, hfe⟩ : ∃ f, f = (if eq then Form.eqBrace else .brace) ∧ (f = .brace ∨ f = .eqBrace) := ⟨_, rfl, by cases eq <;> simp⟩
  rw [← hf]
  by_cases h0 : args = []
  · subst h0
    have hs : compile L f ([] : List (Arg w)) = finish L f ([] : List (Arg w)) (.ctor .default) := by
      rcases hfe with rfl | rfl <;> rfl
    rw [hs]
    exact agrees0 f L
  have hsel : select L f args = match resolveList L (args.map Arg.ty) with
      | some (.ok e) => .ok (.list e)
      | some (.error x) => .error x
      | none => (resolve L allCtors (args.map Arg.ty)).map .ctor := by
    obtain ⟨a, l, rfl⟩ : ∃ a l, args = a :: l := by cases args with | nil => exact absurd rfl h0 | cons a l => exact ⟨a, l, rfl⟩
    rcases hfe with rfl | rfl <;> rfl
  rw [compile_eq, hsel, resolveList_eq hL h0]
  unfold braceContent
  rw [if_neg h0]
  by_cases h1 : (args.all fun a => a.bit?.isSome) = true
  · rw [if_pos h1, if_pos h1]
    simp [Except.bind, finish, Sel.explicitErr, Sel.narrows, Sel.bodyErr, Agrees]
  rw [if_neg h1, if_neg h1]
  by_cases h2 : args.all Arg.scalar = true
  · rw [if_pos h2, if_pos h2]
    by_cases h3 : (args.all Arg.isBool || args.any Arg.isPtr) = true
    · rw [if_pos h3, if_pos h3]
      by_cases h4 : args.any (Arg.narrowsBool L) = true
      · rw [if_pos h4]
        simp only [Except.bind, finish, Sel.explicitErr, Sel.narrows, h4]
        simp [Agrees]
      · rw [if_neg h4]
        refine ⟨.list .bool, ?_, fun h l hwf hi => ?_⟩
        · simp only [Except.bind, finish, Sel.explicitErr, Sel.narrows, h4, Sel.bodyErr]
          simp
        · cases hi
          exact wpV_ofBoolList S hw hwf fun _ _ s r => ⟨s, r⟩
    · rw [if_neg h3, if_neg h3]
      by_cases h4 : args.all (Arg.isWord L) = true
      · rw [if_pos h4, if_pos h4]
        have hn : args.any (Arg.narrowsInt L.word) = false := by
          rw [List.any_eq_false]
          intro a ha
          simp [words_not_narrow hL a (List.all_eq_true.mp h4 a ha)]
        refine ⟨.list .word, ?_, fun h l hwf hi => ?_⟩
        · simp only [Except.bind, finish, Sel.explicitErr, Sel.narrows, hn, Sel.bodyErr]
          simp
        · cases hi
          exact wpV_ofWords hw hwf fun _ _ s r => ⟨s, r⟩
      · rw [if_neg h4, if_neg h4]
        rfl
  rw [if_neg h2, if_neg h2]
  have hbind : ((resolve L allCtors (args.map Arg.ty)).map Sel.ctor).bind (finish L f args) =
      (resolve L allCtors (args.map Arg.ty)).bind fun c => finish L f args (.ctor c) := by
    cases resolve L allCtors (args.map Arg.ty) <;> rfl
  show Agrees S P args _ (((resolve L allCtors (args.map Arg.ty)).map Sel.ctor).bind (finish L f args))
  rw [hbind]
  match args with
  | [] => exact absurd rfl h0
  | [a] =>
    rw [List.map, List.map, resolve1]
    by_cases ha : a.ty = .alloc
    · have : a = .alloc := by cases a <;> simp [Arg.ty] at ha; rfl
      subst this
      cases eq with
      | true => subst hf; rfl
      | false => subst hf; exact ⟨.ctor .alloc, rfl, fun h l hwf hi => by cases hi; exact ⟨_, _, rfl, wpV_default hwf⟩⟩
    · have hs : a.scalar = false := by simpa using h2
      have key : ((sel1 a.ty).bind fun c => finish L f [a] (.ctor c)) = (sel1 a.ty).bind fun c => finish L .paren [a] (.ctor c) := by
        cases hc : sel1 a.ty with
        | error e => rfl
        | ok c => exact finish_free L f _ c (sel1_free a hs ha c hc)
      rw [key]
      have hx : a.isAlloc = false := by rw [isAlloc_eq]; simp [ha]
      simpa [hx] using agrees1 (S := S) (P := P) hw L a
  | [a, b] =>
    have h := agrees_brace2 (S := S) (P := P) hw L f hfe a b false
    rw [← resolve2' L a b false] at h
    have hq : f = .eqBrace ↔ eq = true := by subst hf; cases eq <;> simp
    have e : (if f = .eqBrace ∧ a.number?.isSome ∧ b.ty = .alloc ∧ false = false then .error .explicit
       else if (b.bit?.isSome ∨ (b.ty = .alloc ∧ false = false)) ∧ a.narrowsInt L.size then .error .narrowing
       else pairContent a b false) = (if (b.isAlloc && eq && a.number?.isSome) = true then Except.error Err.explicit
      else if ((b.isAlloc || b.bit?.isSome) && a.narrowsInt L.size) = true then .error .narrowing else parenContent [a, b]) := by
      simp only [isAlloc_eq, hq, Bool.and_eq_true, Bool.or_eq_true, decide_eq_true_eq, and_true, parenContent]
      congr 1
      · simp only [eq_iff_iff]; exact ⟨fun ⟨h1, h2, h3⟩ => ⟨⟨h3, h1⟩, h2⟩, fun ⟨⟨h3, h1⟩, h2⟩ => ⟨h1, h2, h3⟩⟩
      · congr 1
        simp only [eq_iff_iff]; exact ⟨fun ⟨h1, h2⟩ => ⟨h1.symm, h2⟩, fun ⟨h1, h2⟩ => ⟨h1.symm, h2⟩⟩
    rw [e] at h
    exact h
  | a :: b :: c :: as =>
    by_cases hc : c.ty = .alloc ∧ as = []
    · obtain ⟨hc1, rfl⟩ := hc
      have : c = .alloc := by cases c <;> simp [Arg.ty] at hc1; rfl
      subst this
      have h := agrees_brace2 (S := S) (P := P) hw L f hfe a b true
      rw [← resolve2' L a b true] at h
      simpa [alArgs, parenContent, Arg.isAlloc] using h
    · have hn : resolve L allCtors ((a :: b :: c :: as).map Arg.ty) = .error .noMatch := by
        refine resolve3 L a.ty b.ty c.ty (as.map Arg.ty) ?_
        by_cases h1 : c.ty = .alloc
        · right; intro h2; exact hc ⟨h1, by simpa using h2⟩
        · exact .inl h1
      rw [hn]
      have hp : parenContent (a :: b :: c :: as) = .error .noMatch := by
        unfold parenContent
        split <;> simp_all [Arg.ty]
      rcases as with _ | ⟨x, xs⟩
      · have hx : c.isAlloc = false := by rw [isAlloc_eq]; simpa using hc
        simp [hx, hp, Agrees, Except.bind]
      · simp [hp, Agrees, Except.bind]

end BitLib.Construct
