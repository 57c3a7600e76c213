import Verif.SpecConstruct
import Verif.Lemmas.StoreOps
/- Lemmas for C100: overload resolution for the constructors of `bit_vector`, by number and kinds of arguments. -/
namespace BitLib.Construct
variable {w : Nat}

/-- One argument. -/
def sel1 : Ty → Except Err Ctor
  | .bool | .int _ => .ok .count
  | .charPtr | .string | .stringView => .ok .string
  | .alloc => .ok .alloc
  | .vec true => .ok .move
  | .vec false => .ok .copy
  | .list .bit => .ok .bitList
  | .list .bool => .ok .boolList
  | .list .word => .ok .wordList
  | _ => .error .noMatch

theorem resolve1 (L : Lang) (a : Ty) : resolve L allCtors [a] = sel1 a := by
  rcases a with _ | _ | _ | _ | _ | _ | _ | _ | _ | _ | _ | (_ | _) | (_ | _ | _) | _ <;>
    simp [resolve, allCtors, Ctor.seqs, convsOpt, Ctor.params, Ctor.optAlloc, Ty.to, Ty.toInt, sel1, Ctor.better, Ctor.template]

/-- Two arguments, or three of which the last is an allocator. -/
def sel2 (a b : Ty) (al : Bool) : Except Err Ctor :=
  if a.decay = b.decay then
    match a with
    | .bitIter _ => .ok .bitRange
    | _ => .ok .range
  else match a, b, al with
    | .bool, .bitValue, _ | .int _, .bitValue, _ | .bool, .bitRef _, _ | .int _, .bitRef _, _ => .ok .countVal
    | .bool, .alloc, false | .int _, .alloc, false => .ok .count
    | .vec true, .alloc, false | .stringView, .alloc, false => .ok .moveAlloc
    | .vec false, .alloc, false => .ok .copyAlloc
    | .list .bit, .alloc, false => .ok .bitList
    | .list .bool, .alloc, false => .ok .boolList
    | .list .word, .alloc, false => .ok .wordList
    | _, _, _ => .error .noMatch

/-- If the arguments convert to no declared parameter the templates remain. -/
theorem resolve_range (L : Lang) (args : List Ty) (h : ∀ c : Ctor, c.template = false → c.seqs L args = none) :
    resolve L allCtors args =
      match Ctor.bitRange.seqs L args, Ctor.range.seqs L args with
      | some _, some _ => resolve L [.bitRange, .range] args
      | some _, none => .ok .bitRange
      | none, some _ => .ok .range
      | none, none => .error .noMatch := by
  have hf : (allCtors.filter fun c => (c.seqs L args).isSome) = [Ctor.bitRange, .range].filter fun c => (c.seqs L args).isSome := by
    simp [allCtors, List.filter, h Ctor.default rfl, h Ctor.alloc rfl, h Ctor.countVal rfl, h Ctor.count rfl, h Ctor.copy rfl, h Ctor.copyAlloc rfl, h Ctor.move rfl,
      h Ctor.moveAlloc rfl, h Ctor.bitList rfl, h Ctor.boolList rfl, h Ctor.wordList rfl, h Ctor.string rfl]
  unfold resolve
  rw [hf]
  cases h1 : Ctor.bitRange.seqs L args <;> cases h2 : Ctor.range.seqs L args <;> simp [List.filter, h1, h2]

/-- The allocator argument, if given. -/
def alArg (al : Bool) : List Ty := if al then [.alloc] else []

theorem resolve2_templates (L : Lang) (a b : Ty) (al : Bool) (h : ∀ c : Ctor, c.template = false → c.seqs L (a :: b :: alArg al) = none) :
    resolve L allCtors (a :: b :: alArg al) =
      if a.decay = b.decay then (match a with | .bitIter _ => .ok .bitRange | _ => .ok .range) else .error .noMatch := by
  rw [resolve_range L _ h]
  have hal : convsOpt L true [] (alArg al) = some (if al then [1] else []) := by cases al <;> rfl
  cases a <;> cases b <;> simp [Ctor.seqs, hal, Ty.decay] <;> split <;>
    simp_all [resolve, Ctor.seqs, Ctor.better, Ctor.template]

theorem resolve2 (L : Lang) (a b : Ty) (al : Bool) : resolve L allCtors (a :: b :: alArg al) = sel2 a b al := by
  by_cases h1 : b = .alloc
  · subst h1
    cases al
    · rcases a with _ | _ | _ | _ | _ | _ | _ | _ | _ | _ | _ | (_ | _) | (_ | _ | _) | _ <;>
        simp [alArg, resolve, allCtors, Ctor.seqs, convsOpt, convs, Ctor.params, Ctor.optAlloc, Ty.to, Ty.toInt, Ty.toBitValue, sel2, Ctor.better,
          Ctor.template, Ty.decay]
    · rw [resolve2_templates]
      · cases a <;> simp [sel2, Ty.decay]
      · intro c hc
        cases c <;> simp [Ctor.template] at hc <;>
          simp [alArg, Ctor.seqs, convsOpt, Ctor.params, Ctor.optAlloc, Ty.to, Ty.toBitValue]
  by_cases h2 : b.toBitValue.isSome
  · have hb : b = .bitValue ∨ ∃ k, b = .bitRef k := by cases b <;> simp [Ty.toBitValue] at h2 <;> simp
    by_cases h3 : (a.toInt L L.size).isSome
    · rcases hb with rfl | ⟨k, rfl⟩ <;> cases a <;> simp [Ty.toInt] at h3 <;> cases al <;>
        simp [alArg, resolve, allCtors, Ctor.seqs, convsOpt, convs, Ctor.params, Ctor.optAlloc, Ty.to, Ty.toInt, Ty.toBitValue, sel2, Ctor.better,
          Ctor.template, Ty.decay]
    · rw [resolve2_templates]
      · rcases hb with rfl | ⟨k, rfl⟩ <;> cases a <;> simp [Ty.toInt] at h3 <;> simp [sel2, Ty.decay]
      · intro c hc
        have h3' : a.toInt L L.size = none := by simpa using h3
        rcases hb with rfl | ⟨k, rfl⟩ <;> cases c <;> simp [Ctor.template] at hc <;> cases al <;>
          simp [alArg, Ctor.seqs, convsOpt, convs, Ctor.params, Ctor.optAlloc, Ty.to, h3']
  · have h2' : b.toBitValue = none := by simpa using h2
    have h1' : b.to L .alloc = none := by cases b <;> simp_all [Ty.to]
    rw [resolve2_templates]
    · unfold sel2
      split
      · cases a <;> rfl
      · cases b <;> simp [Ty.toBitValue] at h2 <;> first
          | exact absurd rfl h1
          | (rcases a with _ | _ | _ | _ | _ | _ | _ | _ | _ | _ | _ | (_ | _) | (_ | _ | _) | _ <;> rfl)
    · intro c hc
      cases c <;> simp [Ctor.template] at hc <;> cases al <;>
        simp [alArg, Ctor.seqs, convsOpt, convs, Ctor.params, Ctor.optAlloc, h1'] <;> simp [Ty.to, h2']

/-- More arguments. -/
theorem resolve3 (L : Lang) (a b c : Ty) (as : List Ty) (h : c ≠ .alloc ∨ as ≠ []) : resolve L allCtors (a :: b :: c :: as) = .error .noMatch := by
  have hs : ∀ d : Ctor, d.seqs L (a :: b :: c :: as) = none := by
    intro d
    rcases as with _ | ⟨x, xs⟩
    · have hc : c.to L .alloc = none := by
        have : c ≠ .alloc := by rcases h with h | h; exact h; exact absurd rfl h
        cases c <;> simp_all [Ty.to]
      cases d <;> simp [Ctor.seqs, Ctor.params, Ctor.optAlloc, convsOpt, convs, hc]
      cases a <;> cases b <;> simp [convsOpt, convs, hc]
    · cases d <;> simp [Ctor.seqs, Ctor.params, Ctor.optAlloc, convsOpt]
      cases a <;> cases b <;> simp [convsOpt]
  simp [resolve, allCtors, hs]

/-! ### Lists in braces -/

theorem worst_isSome {f : Ty → Option Nat} {l : List Ty} : (worst f l).isSome = l.all fun a => (f a).isSome := by
  induction l with
  | nil => rfl
  | cons a l ih =>
    cases h : f a with
    | none => simp [worst, h]
    | some c =>
      cases h2 : worst f l with
      | none => simp [worst, h, h2] at ih ⊢; simpa using ih
      | some d => simp [worst, h, h2] at ih ⊢; simpa using ih

/-- The worst is at most `k` if and only if all are. -/
theorem worst_le {f : Ty → Option Nat} {k : Nat} (hk : 1 ≤ k) {l : List Ty} {c : Nat} (h : worst f l = some c) :
    c ≤ k ↔ ∀ a ∈ l, ∀ x, f a = some x → x ≤ k := by
  induction l generalizing c with
  | nil => simp [worst] at h; subst h; simp [hk]
  | cons a l ih =>
    cases h1 : f a with
    | none => simp [worst, h1] at h
    | some x =>
      cases h2 : worst f l with
      | none => simp [worst, h1, h2] at h
      | some d =>
        simp [worst, h1, h2] at h
        subst h
        have := ih h2
        simp only [List.mem_cons, forall_eq_or_imp, ← this, h1]
        simp

theorem toBool_le3 (a : Arg w) (x : Nat) (h : a.ty.toBool = some x) : x ≤ 3 := by
  cases a <;> simp [Arg.ty, Ty.toBool] at h <;> omega

theorem toInt_le3 (L : Lang) (u : IntTy) (a : Arg w) (x : Nat) (h : a.ty.toInt L u = some x) : x ≤ 3 := by
  cases a <;> simp only [Arg.ty, Ty.toInt, Option.some.injEq, reduceCtorEq] at h
  · split at h <;> omega
  · split at h <;> [omega; (split at h <;> omega)]

theorem toBool_isBool (a : Arg w) (h : a.isBool = true) (x : Nat) (hx : a.ty.toBool = some x) : x ≤ 1 := by
  cases a <;> simp [Arg.isBool] at h
  simp [Arg.ty, Ty.toBool] at hx; omega

theorem toBool_number (a : Arg w) (h1 : a.scalar = true) (h3 : ¬ a.isBool = true) : a.ty.toBool = some 3 := by
  cases a <;> simp [Arg.scalar, Arg.isBool] at h1 h3 <;> rfl

theorem toInt_isBool (L : Lang) (u : IntTy) (hu : u ≠ L.int) (a : Arg w) (h : a.isBool = true) : a.ty.toInt L u = some 3 := by
  cases a <;> simp [Arg.isBool] at h
  simp [Arg.ty, Ty.toInt, hu]

theorem toInt_isWord (L : Lang) (a : Arg w) (h : a.isWord L = true) (x : Nat) (hx : a.ty.toInt L L.word = some x) : x ≤ 2 := by
  cases a <;> simp [Arg.isWord] at h
  simp only [Arg.ty, Ty.toInt, Option.some.injEq] at hx
  split at hx
  · omega
  · rename_i hn
    simp [hn] at h
    simp [h] at hx; omega

theorem toInt_not_isWord (L : Lang) (hu : L.word ≠ L.int) (a : Arg w) (h1 : a.scalar = true) (h2 : a.isPtr = false) (h : ¬ a.isWord L = true) :
    a.ty.toInt L L.word = some 3 := by
  cases a <;> simp [Arg.scalar, Arg.isPtr] at h1 h2
  · simp [Arg.ty, Ty.toInt, hu]
  · simp [Arg.isWord] at h
    simp [Arg.ty, Ty.toInt, h]

/-- The selection among the constructors from lists, by the kinds of the arguments. -/
theorem resolveList_eq {L : Lang} (hL : L.Ok) {args : List (Arg w)} (hne : args ≠ []) :
    resolveList L (args.map Arg.ty) =
      if args.all fun a => a.bit?.isSome then some (.ok .bit)
      else if args.all Arg.scalar then
        if args.all Arg.isBool || args.any Arg.isPtr then some (.ok .bool)
        else if args.all (Arg.isWord L) then some (.ok .word) else some (.error .ambiguous)
      else none := by
  obtain ⟨a0, as, rfl⟩ : ∃ a l, args = a :: l := by cases args with | nil => exact absurd rfl hne | cons a l => exact ⟨a, l, rfl⟩
  have hbit : (worst (elemConv L .bit) ((a0 :: as).map Arg.ty)).isSome = (a0 :: as).all fun a => a.bit?.isSome := by
    rw [worst_isSome, List.all_map]
    congr 1; funext a; cases a <;> rfl
  have hbool : (worst (elemConv L .bool) ((a0 :: as).map Arg.ty)).isSome = (a0 :: as).all Arg.scalar := by
    rw [worst_isSome, List.all_map]
    congr 1; funext a; cases a <;> rfl
  have hword : (worst (elemConv L .word) ((a0 :: as).map Arg.ty)).isSome = (a0 :: as).all fun a => a.scalar && !a.isPtr := by
    rw [worst_isSome, List.all_map]
    congr 1; funext a; cases a <;> rfl
  have hwi : L.word ≠ L.int := fun e => by have := hL.word; rw [e, hL.int] at this; cases this
  generalize hargs : a0 :: as = args at *
  have hmem : a0 ∈ args := by rw [← hargs]; simp
  unfold resolveList
  by_cases h1 : (args.all fun a => a.bit?.isSome) = true
  · rw [if_pos h1]
    rw [h1] at hbit
    have h0 : a0.bit?.isSome := by simpa using List.all_eq_true.mp h1 a0 hmem
    have h2 : args.all Arg.scalar = false := by
      rw [List.all_eq_false]; exact ⟨a0, hmem, by cases a0 <;> simp_all [Arg.bit?, Arg.scalar]⟩
    have h3 : (args.all fun a => a.scalar && !a.isPtr) = false := by
      rw [List.all_eq_false]; exact ⟨a0, hmem, by cases a0 <;> simp_all [Arg.bit?, Arg.scalar]⟩
    rw [h2] at hbool; rw [h3] at hword
    cases e1 : worst (elemConv L .bit) (args.map Arg.ty) <;> simp [e1] at hbit
    cases e2 : worst (elemConv L .bool) (args.map Arg.ty) <;> simp [e2] at hbool
    cases e3 : worst (elemConv L .word) (args.map Arg.ty) <;> simp [e3] at hword
    simp [e1, e2, e3, List.filterMap]
  rw [if_neg h1]
  have h1' : (args.all fun a => a.bit?.isSome) = false := by simpa using h1
  rw [h1'] at hbit
  cases e1 : worst (elemConv L .bit) (args.map Arg.ty) <;> simp [e1] at hbit
  by_cases h2 : args.all Arg.scalar = true
  · rw [if_pos h2]
    rw [h2] at hbool
    have hs : ∀ a ∈ args, a.scalar = true := List.all_eq_true.mp h2
    cases e2 : worst (elemConv L .bool) (args.map Arg.ty) with
    | none => simp [e2] at hbool
    | some cb =>
    by_cases h3 : args.any Arg.isPtr = true
    · have h4 : (args.all fun a => a.scalar && !a.isPtr) = false := by
        obtain ⟨a, ha, hp⟩ := List.any_eq_true.mp h3
        rw [List.all_eq_false]; exact ⟨a, ha, by simp [hp]⟩
      rw [h4] at hword
      cases e3 : worst (elemConv L .word) (args.map Arg.ty) <;> simp [e3] at hword
      simp [e1, e2, e3, List.filterMap, h3]
    · have hp : ∀ a ∈ args, a.isPtr = false := by
        intro a ha
        cases hx : a.isPtr with
        | false => rfl
        | true => exact absurd (List.any_eq_true.mpr ⟨a, ha, hx⟩) h3
      have h4 : (args.all fun a => a.scalar && !a.isPtr) = true := by
        rw [List.all_eq_true]; intro a ha; simp [hs a ha, hp a ha]
      rw [h4] at hword
      cases e3 : worst (elemConv L .word) (args.map Arg.ty) with
      | none => simp [e3] at hword
      | some cw =>
      have kb := fun k (hk : 1 ≤ k) => worst_le hk e2
      have kw := fun k (hk : 1 ≤ k) => worst_le hk e3
      simp only [List.mem_map, forall_exists_index, and_imp, forall_apply_eq_imp_iff₂] at kb kw
      have b3 : cb ≤ 3 := (kb 3 (by omega)).mpr fun a _ x hx => toBool_le3 a x hx
      have w3 : cw ≤ 3 := (kw 3 (by omega)).mpr fun a _ x hx => toInt_le3 L L.word a x hx
      have h3' : args.any Arg.isPtr = false := by simpa using h3
      simp only [List.filterMap, e1, e2, e3, h3', Bool.or_false, Option.map_some, Option.map_none]
      by_cases h5 : args.all Arg.isBool = true
      · have hb := List.all_eq_true.mp h5
        have cb1 : cb ≤ 1 := (kb 1 (by omega)).mpr fun a ha x hx => toBool_isBool a (hb a ha) x hx
        have cw3 : ¬ cw ≤ 2 := fun h => by
          have := (kw 2 (by omega)).mp h a0 hmem 3 (toInt_isBool L _ hwi a0 (hb a0 hmem))
          omega
        have : cb < cw := by omega
        simp [h5, this]
      · have cb3 : ¬ cb ≤ 2 := fun h => by
          have h5' : args.all Arg.isBool = false := by simpa using h5
          obtain ⟨a, ha, hn⟩ := List.all_eq_false.mp h5'
          have := (kb 2 (by omega)).mp h a ha 3 (toBool_number a (hs a ha) hn)
          omega
        by_cases h6 : args.all (Arg.isWord L) = true
        · have hb := List.all_eq_true.mp h6
          have cw2 : cw ≤ 2 := (kw 2 (by omega)).mpr fun a ha x hx => toInt_isWord L a (hb a ha) x hx
          have : ¬ cb < cw := by omega
          have : cw < cb := by omega
          simp [h5, h6, *]
        · have h6' : args.all (Arg.isWord L) = false := by simpa using h6
          obtain ⟨a, ha, hn⟩ := List.all_eq_false.mp h6'
          have cw3 : ¬ cw ≤ 2 := fun h => by
            have := (kw 2 (by omega)).mp h a ha 3 (toInt_not_isWord L hwi a (hs a ha) (hp a ha) hn)
            omega
          have e : cb = cw := by omega
          simp [h5, h6, e]
  · rw [if_neg h2]
    have h2' : args.all Arg.scalar = false := by simpa using h2
    have h4 : (args.all fun a => a.scalar && !a.isPtr) = false := by
      obtain ⟨a, ha, hn⟩ := List.all_eq_false.mp h2'
      rw [List.all_eq_false]; exact ⟨a, ha, by simp_all⟩
    rw [h2'] at hbool; rw [h4] at hword
    cases e2 : worst (elemConv L .bool) (args.map Arg.ty) <;> simp [e2] at hbool
    cases e3 : worst (elemConv L .word) (args.map Arg.ty) <;> simp [e3] at hword
    simp [e1, e2, e3, List.filterMap]

end BitLib.Construct
