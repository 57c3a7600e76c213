import Verif.SpecLookup
/- Lemmas for the theorems about calls of algorithms: the templates that are viable. -/
namespace BitLib.Lookup

theorem mem_namespaces (form : Form) (args : List Arg) (n : Ns) : n ∈ form.namespaces args ↔ form.Sees args n := by
  cases form with
  | qualified m => simp [Form.namespaces, Form.Sees, eq_comm]
  | plain visible =>
    simp only [Form.namespaces, Form.Sees, List.mem_append, List.mem_flatMap]
    refine or_congr Iff.rfl (exists_congr fun a => and_congr Iff.rfl ?_)
    rcases a with ⟨t, c⟩
    cases t with
    | it t => rcases t with ⟨i, top⟩; cases i <;> cases n <;> simp [Ty.namespaces, Ty.Belongs, WordIt.std, WordIt.isPtr, Ty.IsBit]
    | word i => cases i <;> cases n <;> simp [Ty.namespaces, Ty.Belongs, WordIt.std, WordIt.isPtr, Ty.IsBit]
    | iter s k => cases s <;> cases n <;> simp [Ty.namespaces, Ty.Belongs, Ty.IsBit]
    | value => cases n <;> simp [Ty.namespaces, Ty.Belongs, Ty.IsBit]
    | ref c => cases n <;> simp [Ty.namespaces, Ty.Belongs, Ty.IsBit]
    | num a => cases n <;> simp [Ty.namespaces, Ty.Belongs, Ty.IsBit]
    | fn s k => cases s <;> cases n <;> simp [Ty.namespaces, Ty.Belongs, Ty.IsBit]


theorem viable_length {f : Tmpl} {args : List Arg} {r : List Nat} (h : f.viable args = some r) : f.params.length = args.length := by
  unfold Tmpl.viable at h
  cases hd : deduceAll f.params args [] with
  | none => rw [hd] at h; exact nomatch h
  | some s =>
    have key : ∀ (ps : List Pat) (as : List Arg) (s s' : List (Nat × Bound)), deduceAll ps as s = some s' → ps.length = as.length := by
      intro ps
      induction ps with
      | nil => intro as s s' h; cases as with
        | nil => rfl
        | cons => exact nomatch h
      | cons p ps ih => intro as s s' h; cases as with
        | nil => exact nomatch h
        | cons a as =>
          simp only [deduceAll] at h
          obtain ⟨d, _, h⟩ := Option.bind_eq_some_iff.1 h
          obtain ⟨s2, _, h⟩ := Option.bind_eq_some_iff.1 h
          simp [ih as s2 s' h]
    exact key _ _ _ _ hd

/-- Computes the viability of a template for arguments of known shape. -/
syntax "lk" : tactic
macro_rules | `(tactic| lk) => `(tactic| simp [Tmpl.viable, deduceAll, Pat.deduce, merge, ranks, Pat.rank, List.lookup, Bound.iterator, Bound.movable, Ty.IsBit, Ty.IsRef, Ty.IsIterator, *])

theorem v_copy (args : List Arg) (r : List Nat) : (⟨.bit, [.bits 0, .bits 0, .bits 1], [], false⟩ : Tmpl).viable args = some r ↔
    (∃ t u, args.map Arg.ty = [.it t, .it t, .it u]) ∧ [1, 1, 1] = r := by
  rcases args with _ | ⟨⟨a, _⟩, _ | ⟨⟨b, _⟩, _ | ⟨⟨c, _⟩, _ | ⟨x, l⟩⟩⟩⟩
  any_goals first | (lk; done) | skip
  cases a <;> try (lk; done)
  rename_i t
  cases b <;> try (lk; done)
  rename_i u
  by_cases h : t = u
  case neg =>
    have h' : ¬ u = t := fun e => h e.symm
    lk
  subst h
  cases c <;> lk

theorem v_fill (args : List Arg) (r : List Nat) : (⟨.bit, [.bits 0, .bits 0, .value], [], false⟩ : Tmpl).viable args = some r ↔
    ∃ t x, args.map Arg.ty = [.it t, .it t, x] ∧ ((x = .value ∧ [1, 1, 1] = r) ∨ (x.IsRef ∧ [1, 1, 4] = r)) := by
  rcases args with _ | ⟨⟨a, _⟩, _ | ⟨⟨b, _⟩, _ | ⟨⟨c, _⟩, _ | ⟨x, l⟩⟩⟩⟩
  any_goals first | (lk; done) | skip
  cases a <;> try (lk; done)
  rename_i t
  cases b <;> try (lk; done)
  rename_i u
  by_cases h : t = u
  case neg =>
    have h' : ¬ u = t := fun e => h e.symm
    lk
  subst h
  cases c <;> lk <;> first | grind | (rename_i w; cases w <;> grind)

theorem v_two (args : List Arg) (r : List Nat) : (⟨.bit, [.bits 0, .bits 0], [], false⟩ : Tmpl).viable args = some r ↔
    (∃ t, args.map Arg.ty = [.it t, .it t]) ∧ [1, 1] = r := by
  rcases args with _ | ⟨⟨a, _⟩, _ | ⟨⟨b, _⟩, _ | ⟨x, l⟩⟩⟩
  any_goals first | (lk; done) | skip
  cases a <;> try (lk; done)
  rename_i t
  cases b <;> try (lk; done)
  rename_i u
  by_cases h : t = u
  case neg =>
    have h' : ¬ u = t := fun e => h e.symm
    lk
  subst h
  lk

theorem v_three (args : List Arg) (r : List Nat) : (⟨.bit, [.bits 0, .bits 0, .bits 0], [], false⟩ : Tmpl).viable args = some r ↔
    (∃ t, args.map Arg.ty = [.it t, .it t, .it t]) ∧ [1, 1, 1] = r := by
  rcases args with _ | ⟨⟨a, _⟩, _ | ⟨⟨b, _⟩, _ | ⟨⟨c, _⟩, _ | ⟨x, l⟩⟩⟩⟩
  any_goals first | (lk; done) | skip
  cases a <;> try (lk; done)
  rename_i t
  cases b <;> try (lk; done)
  rename_i u
  by_cases h : t = u
  case neg =>
    have h' : ¬ u = t := fun e => h e.symm
    lk
  subst h
  cases c <;> try (lk; done)
  rename_i u
  by_cases h : t = u
  case neg =>
    have h' : ¬ u = t := fun e => h e.symm
    lk
  subst h
  lk

theorem v_shift (args : List Arg) (r : List Nat) : (⟨.bit, [.bits 0, .bits 0, .diff 0], [], false⟩ : Tmpl).viable args = some r ↔
    ∃ t n, args.map Arg.ty = [.it t, .it t, .num n] ∧ [1, 1, if n = .num true 64 then 1 else 3] = r := by
  rcases args with _ | ⟨⟨a, _⟩, _ | ⟨⟨b, _⟩, _ | ⟨⟨c, _⟩, _ | ⟨x, l⟩⟩⟩⟩
  any_goals first | (lk; done) | skip
  cases a <;> try (lk; done)
  rename_i t
  cases b <;> try (lk; done)
  rename_i u
  by_cases h : t = u
  case neg =>
    have h' : ¬ u = t := fun e => h e.symm
    lk
    grind
  subst h
  cases c <;> lk <;> grind

theorem v_tr1 (args : List Arg) (r : List Nat) : (⟨.bit, [.bits 0, .bits 0, .bits 0, .any 1], [], false⟩ : Tmpl).viable args = some r ↔
    (∃ t x, args.map Arg.ty = [.it t, .it t, .it t, x]) ∧ [1, 1, 1, 1] = r := by
  rcases args with _ | ⟨⟨a, _⟩, _ | ⟨⟨b, _⟩, _ | ⟨⟨c, _⟩, _ | ⟨⟨d, _⟩, _ | ⟨x, l⟩⟩⟩⟩⟩
  any_goals first | (lk; done) | skip
  cases a <;> try (lk; done)
  rename_i t
  cases b <;> try (lk; done)
  rename_i u
  by_cases h : t = u
  case neg =>
    have h' : ¬ u = t := fun e => h e.symm
    lk
  subst h
  cases c <;> try (lk; done)
  rename_i u
  by_cases h : t = u
  case neg =>
    have h' : ¬ u = t := fun e => h e.symm
    lk
  subst h
  lk

theorem v_tr2 (args : List Arg) (r : List Nat) : (⟨.bit, [.bits 0, .bits 0, .bits 0, .bits 0, .any 1], [], false⟩ : Tmpl).viable args = some r ↔
    (∃ t x, args.map Arg.ty = [.it t, .it t, .it t, .it t, x]) ∧ [1, 1, 1, 1, 1] = r := by
  rcases args with _ | ⟨⟨a, _⟩, _ | ⟨⟨b, _⟩, _ | ⟨⟨c, _⟩, _ | ⟨⟨d, _⟩, _ | ⟨⟨e, _⟩, _ | ⟨x, l⟩⟩⟩⟩⟩⟩
  any_goals first | (lk; done) | skip
  cases a <;> try (lk; done)
  rename_i t
  cases b <;> try (lk; done)
  rename_i u
  by_cases h : t = u
  case neg =>
    have h' : ¬ u = t := fun e => h e.symm
    lk
  subst h
  cases c <;> try (lk; done)
  rename_i u
  by_cases h : t = u
  case neg =>
    have h' : ¬ u = t := fun e => h e.symm
    lk
  subst h
  cases d <;> try (lk; done)
  rename_i u
  by_cases h : t = u
  case neg =>
    have h' : ¬ u = t := fun e => h e.symm
    lk
  subst h
  lk

theorem w_copy (args : List Arg) (r : List Nat) : (⟨.std, [.any 0, .any 0, .any 1], [], false⟩ : Tmpl).viable args = some r ↔
    (∃ a b, args.map Arg.ty = [a, a, b]) ∧ [1, 1, 1] = r := by
  rcases args with _ | ⟨⟨a, _⟩, _ | ⟨⟨b, _⟩, _ | ⟨⟨c, _⟩, _ | ⟨x, l⟩⟩⟩⟩
  any_goals first | (lk; done) | skip
  by_cases h : a = b
  case neg =>
    have h' : ¬ b = a := fun e => h e.symm
    lk
  subst h
  lk

theorem w_fill (args : List Arg) (r : List Nat) : (⟨.std, [.any 0, .any 0, .anyC 1], [], false⟩ : Tmpl).viable args = some r ↔
    (∃ a b, args.map Arg.ty = [a, a, b]) ∧ [1, 1, 1] = r := by
  rcases args with _ | ⟨⟨a, _⟩, _ | ⟨⟨b, _⟩, _ | ⟨⟨c, _⟩, _ | ⟨x, l⟩⟩⟩⟩
  any_goals first | (lk; done) | skip
  by_cases h : a = b
  case neg =>
    have h' : ¬ b = a := fun e => h e.symm
    lk
  subst h
  lk

theorem w_count (args : List Arg) (r : List Nat) : (⟨.std, [.any 0, .any 0, .anyC 1], [0], false⟩ : Tmpl).viable args = some r ↔
    (∃ a b, args.map Arg.ty = [a, a, b] ∧ a.IsIterator) ∧ [1, 1, 1] = r := by
  rcases args with _ | ⟨⟨a, _⟩, _ | ⟨⟨b, _⟩, _ | ⟨⟨c, _⟩, _ | ⟨x, l⟩⟩⟩⟩
  any_goals first | (lk; done) | skip
  by_cases h : a = b
  case neg =>
    have h' : ¬ b = a := fun e => h e.symm
    lk
  subst h
  cases a <;> lk

theorem w_equal4 (args : List Arg) (r : List Nat) : (⟨.std, [.any 0, .any 0, .any 1, .any 2], [], false⟩ : Tmpl).viable args = some r ↔
    (∃ a b c, args.map Arg.ty = [a, a, b, c]) ∧ [1, 1, 1, 1] = r := by
  rcases args with _ | ⟨⟨a, _⟩, _ | ⟨⟨b, _⟩, _ | ⟨⟨c, _⟩, _ | ⟨⟨d, _⟩, _ | ⟨x, l⟩⟩⟩⟩⟩
  any_goals first | (lk; done) | skip
  by_cases h : a = b
  case neg =>
    have h' : ¬ b = a := fun e => h e.symm
    lk
  subst h
  lk

theorem w_equal4b (args : List Arg) (r : List Nat) : (⟨.std, [.any 0, .any 0, .any 1, .any 1], [], false⟩ : Tmpl).viable args = some r ↔
    (∃ a b, args.map Arg.ty = [a, a, b, b]) ∧ [1, 1, 1, 1] = r := by
  rcases args with _ | ⟨⟨a, _⟩, _ | ⟨⟨b, _⟩, _ | ⟨⟨c, _⟩, _ | ⟨⟨d, _⟩, _ | ⟨x, l⟩⟩⟩⟩⟩
  any_goals first | (lk; done) | skip
  by_cases h : a = b
  case neg =>
    have h' : ¬ b = a := fun e => h e.symm
    lk
  subst h
  by_cases h : c = d
  case neg =>
    have h' : ¬ d = c := fun e => h e.symm
    lk
  subst h
  lk

theorem w_equal5 (args : List Arg) (r : List Nat) : (⟨.std, [.any 0, .any 0, .any 1, .any 1, .any 2], [], false⟩ : Tmpl).viable args = some r ↔
    (∃ a b c, args.map Arg.ty = [a, a, b, b, c]) ∧ [1, 1, 1, 1, 1] = r := by
  rcases args with _ | ⟨⟨a, _⟩, _ | ⟨⟨b, _⟩, _ | ⟨⟨c, _⟩, _ | ⟨⟨d, _⟩, _ | ⟨⟨e, _⟩, _ | ⟨x, l⟩⟩⟩⟩⟩⟩
  any_goals first | (lk; done) | skip
  by_cases h : a = b
  case neg =>
    have h' : ¬ b = a := fun e => h e.symm
    lk
  subst h
  by_cases h : c = d
  case neg =>
    have h' : ¬ d = c := fun e => h e.symm
    lk
  subst h
  lk

theorem w_two (args : List Arg) (r : List Nat) : (⟨.std, [.any 0, .any 0], [], false⟩ : Tmpl).viable args = some r ↔
    (∃ a, args.map Arg.ty = [a, a]) ∧ [1, 1] = r := by
  rcases args with _ | ⟨⟨a, _⟩, _ | ⟨⟨b, _⟩, _ | ⟨x, l⟩⟩⟩
  any_goals first | (lk; done) | skip
  by_cases h : a = b
  case neg =>
    have h' : ¬ b = a := fun e => h e.symm
    lk
  subst h
  lk

theorem w_distance (args : List Arg) (r : List Nat) : (⟨.std, [.any 0, .any 0], [0], false⟩ : Tmpl).viable args = some r ↔
    (∃ a, args.map Arg.ty = [a, a] ∧ a.IsIterator) ∧ [1, 1] = r := by
  rcases args with _ | ⟨⟨a, _⟩, _ | ⟨⟨b, _⟩, _ | ⟨x, l⟩⟩⟩
  any_goals first | (lk; done) | skip
  by_cases h : a = b
  case neg =>
    have h' : ¬ b = a := fun e => h e.symm
    lk
  subst h
  cases a <;> lk

theorem w_three (args : List Arg) (r : List Nat) : (⟨.std, [.any 0, .any 0, .any 0], [], false⟩ : Tmpl).viable args = some r ↔
    (∃ a, args.map Arg.ty = [a, a, a]) ∧ [1, 1, 1] = r := by
  rcases args with _ | ⟨⟨a, _⟩, _ | ⟨⟨b, _⟩, _ | ⟨⟨c, _⟩, _ | ⟨x, l⟩⟩⟩⟩
  any_goals first | (lk; done) | skip
  by_cases h : a = b
  case neg =>
    have h' : ¬ b = a := fun e => h e.symm
    lk
  subst h
  by_cases h : a = c
  case neg =>
    have h' : ¬ c = a := fun e => h e.symm
    lk
  subst h
  lk

theorem w_shift (args : List Arg) (r : List Nat) : (⟨.std, [.any 0, .any 0, .diff 0], [0], false⟩ : Tmpl).viable args = some r ↔
    ∃ a n, args.map Arg.ty = [a, a, .num n] ∧ a.IsIterator ∧ [1, 1, if n = .num true 64 then 1 else 3] = r := by
  rcases args with _ | ⟨⟨a, _⟩, _ | ⟨⟨b, _⟩, _ | ⟨⟨c, _⟩, _ | ⟨x, l⟩⟩⟩⟩
  any_goals first | (lk; done) | skip
  by_cases h : a = b
  case neg =>
    have h' : ¬ b = a := fun e => h e.symm
    lk
    grind
  subst h
  cases c <;> try (lk; done)
  cases a <;> lk <;> first | grind | (rename_i s k; cases s <;> grind)

theorem w_tr5 (args : List Arg) (r : List Nat) : (⟨.std, [.any 0, .any 0, .any 1, .any 2, .any 3], [], false⟩ : Tmpl).viable args = some r ↔
    (∃ a b c x, args.map Arg.ty = [a, a, b, c, x]) ∧ [1, 1, 1, 1, 1] = r := by
  rcases args with _ | ⟨⟨a, _⟩, _ | ⟨⟨b, _⟩, _ | ⟨⟨c, _⟩, _ | ⟨⟨d, _⟩, _ | ⟨⟨e, _⟩, _ | ⟨x, l⟩⟩⟩⟩⟩⟩
  any_goals first | (lk; done) | skip
  by_cases h : a = b
  case neg =>
    have h' : ¬ b = a := fun e => h e.symm
    lk
  subst h
  lk

theorem v_advance (args : List Arg) (r : List Nat) : (⟨.bit, [.bitsL 0, .any 1], [], false⟩ : Tmpl).viable args = some r ↔
    (∃ t x, args = [⟨.it t, .lvalue⟩, x]) ∧ [1, 1] = r := by
  rcases args with _ | ⟨⟨a, ca⟩, _ | ⟨⟨b, cb⟩, _ | ⟨x, l⟩⟩⟩
  any_goals first | (lk; done) | skip
  cases a <;> cases ca <;> lk

theorem w_advance (args : List Arg) (r : List Nat) : (⟨.std, [.anyL 0, .any 1], [], false⟩ : Tmpl).viable args = some r ↔
    (∃ a x, args = [a, x] ∧ a.cat ≠ .rvalue) ∧ [1, 1] = r := by
  rcases args with _ | ⟨⟨a, ca⟩, _ | ⟨⟨b, cb⟩, _ | ⟨x, l⟩⟩⟩
  any_goals first | (lk; done) | skip
  cases ca <;> lk

theorem v_swap1 (args : List Arg) (r : List Nat) : (⟨.bit, [.refs 0, .refs 1], [], false⟩ : Tmpl).viable args = some r ↔
    (∃ a b, args = [a, b] ∧ a.ty.IsRef ∧ b.ty.IsRef) ∧ [1, 1] = r := by
  rcases args with _ | ⟨⟨a, ca⟩, _ | ⟨⟨b, cb⟩, _ | ⟨x, l⟩⟩⟩
  any_goals first | (lk; done) | skip
  cases a <;> try (lk; done)
  cases b <;> lk <;> (rename_i w w'; cases w <;> cases w' <;> grind)

theorem v_swap2 (args : List Arg) (r : List Nat) : (⟨.bit, [.refs 0, .valueL], [], false⟩ : Tmpl).viable args = some r ↔
    (∃ a b, args = [a, b] ∧ a.ty.IsRef ∧ b = ⟨.value, .lvalue⟩) ∧ [1, 1] = r := by
  rcases args with _ | ⟨⟨a, ca⟩, _ | ⟨⟨b, cb⟩, _ | ⟨x, l⟩⟩⟩
  any_goals first | (lk; done) | skip
  cases a <;> try (lk; done)
  cases b <;> cases cb <;> lk

theorem v_swap3 (args : List Arg) (r : List Nat) : (⟨.bit, [.valueL, .refs 0], [], false⟩ : Tmpl).viable args = some r ↔
    (∃ a b, args = [a, b] ∧ a = ⟨.value, .lvalue⟩ ∧ b.ty.IsRef) ∧ [1, 1] = r := by
  rcases args with _ | ⟨⟨a, ca⟩, _ | ⟨⟨b, cb⟩, _ | ⟨x, l⟩⟩⟩
  any_goals first | (lk; done) | skip
  cases a <;> cases ca <;> try (lk; done)
  cases b <;> lk <;> (rename_i w; cases w <;> grind)

theorem w_swap (args : List Arg) (r : List Nat) : (⟨.std, [.anyL 0, .anyL 0], [], true⟩ : Tmpl).viable args = some r ↔
    (∃ t, args = [⟨t, .lvalue⟩, ⟨t, .lvalue⟩] ∧ ∀ u, t = .it u → u.top = false) ∧ [1, 1] = r := by
  rcases args with _ | ⟨⟨a, ca⟩, _ | ⟨⟨b, cb⟩, _ | ⟨x, l⟩⟩⟩
  any_goals first | (lk; done) | skip
  by_cases h : a = b
  case neg =>
    have h' : ¬ b = a := fun e => h e.symm
    cases ca <;> cases cb <;> lk
  subst h
  cases ca <;> cases cb <;> try (lk; done)
  all_goals cases a <;> lk

/-- The call chooses a function of the namespace. -/
def Chosen (o : Option Tmpl) (n : Ns) : Prop := ∃ g, o = some g ∧ g.ns = n

theorem viables_nil (args : List Arg) : viables [] args = [] := rfl

theorem viables_cons (f : Tmpl) (fs : List Tmpl) (args : List Arg) :
    viables (f :: fs) args = (match f.viable args with | some r => [(f, r)] | none => []) ++ viables fs args := by
  simp only [viables, List.filterMap_cons]
  cases f.viable args <;> rfl

theorem viables_append (fs gs : List Tmpl) (args : List Arg) : viables (fs ++ gs) args = viables fs args ++ viables gs args := by
  simp [viables]

theorem best_nil : best [] = none := rfl

theorem best_one (c : Tmpl × List Nat) : best [c] = some c.1 := by simp [best]

theorem best_two (c d : Tmpl × List Nat) (h : c.1 ≠ d.1) :
    best [c, d] = if better c d then some c.1 else if better d c then some d.1 else none := by
  have h' : d.1 ≠ c.1 := fun e => h e.symm
  unfold best
  simp only [List.find?, List.all_cons, List.all_nil, decide_true, Bool.true_or, Bool.and_true, Bool.true_and, h, h', decide_false, Bool.false_or]
  cases better c d <;> cases better d c <;> rfl

/-- One template of each namespace. -/
theorem pair {B S : Tmpl} {args : List Arg} {vb vs PB PS VR : Prop} [Decidable vb] [Decidable vs] (hb : B.ns = .bit) (hs : S.ns = .std)
    (hB : (∃ r, B.viable args = some r) ↔ PB) (hS : (∃ r, S.viable args = some r) ↔ PS)
    (hw : ∀ r s, B.viable args = some r → S.viable args = some s →
      (¬ VR → better (B, r) (S, s) = true) ∧ (VR → better (B, r) (S, s) = false ∧ better (S, s) (B, r) = true)) (n : Ns) :
    Chosen (best (viables ((if vb then [B] else []) ++ (if vs then [S] else [])) args)) n ↔
      (n = .bit ∧ vb ∧ PB ∧ ¬ (vs ∧ PS ∧ VR)) ∨ (n = .std ∧ vs ∧ PS ∧ (¬ (vb ∧ PB) ∨ VR)) := by
  have hne : B ≠ S := fun e => by rw [e, hs] at hb; cases hb
  rw [viables_append]
  have e1 : viables (if vb then [B] else []) args = if vb then (match B.viable args with | some r => [(B, r)] | none => []) else [] := by
    split
    · rw [viables_cons]; simp [viables_nil]
    · rfl
  have e2 : viables (if vs then [S] else []) args = if vs then (match S.viable args with | some r => [(S, r)] | none => []) else [] := by
    split
    · rw [viables_cons]; simp [viables_nil]
    · rfl
  rw [e1, e2]
  rcases hvb : B.viable args with _ | r <;> rcases hvs : S.viable args with _ | s <;> rw [hvb] at hB <;> rw [hvs] at hS <;>
    simp only [reduceCtorEq, exists_false, false_iff, Option.some.injEq, exists_eq', true_iff] at hB hS
  · by_cases h1 : vb <;> by_cases h2 : vs <;> simp [h1, h2, hB, hS, best_nil, Chosen]
  · by_cases h1 : vb <;> by_cases h2 : vs <;> simp [h1, h2, hB, hS, best_nil, best_one, Chosen, hs, eq_comm]
  · by_cases h1 : vb <;> by_cases h2 : vs <;> simp [h1, h2, hB, hS, best_nil, best_one, Chosen, hb, eq_comm]
  · by_cases h1 : vb <;> by_cases h2 : vs
    · simp only [h1, h2, if_true, List.cons_append, List.nil_append]
      rw [best_two _ _ (by simpa using hne)]
      by_cases hr : VR
      · obtain ⟨a, b⟩ := (hw r s hvb hvs).2 hr
        simp [a, b, Chosen, hs, hr, hB, hS, eq_comm]
      · have a := (hw r s hvb hvs).1 hr
        simp [a, Chosen, hb, hr, hB, hS, eq_comm]
    all_goals simp [h1, h2, hB, hS, best_nil, best_one, Chosen, hb, hs, eq_comm]


instance (form : Form) (args : List Arg) (n : Ns) : Decidable (n ∈ form.namespaces args) := inferInstance

theorem viables_filter (fs : List Tmpl) (args : List Arg) : viables fs args = viables (fs.filter fun f => f.params.length == args.length) args := by
  induction fs with
  | nil => rfl
  | cons f fs ih =>
    rw [viables_cons, List.filter_cons]
    by_cases h : f.params.length = args.length
    · simp only [h, beq_self_eq_true, if_true, viables_cons]
      rw [← ih]
    · have hv : f.viable args = none := by
        rcases hv : f.viable args with _ | r
        · rfl
        · exact absurd (viable_length hv) h
      rw [hv]
      simp [h, ih]

theorem viables_len {k : Nat} {args : List Arg} (h : args.length = k) (fs : List Tmpl) :
    viables fs args = viables (fs.filter fun f => f.params.length == k) args := by rw [viables_filter fs args, h]

/-- `Reaches` with the two sides put together. -/
theorem reaches_iff (cpp20 : Bool) (form : Form) (f : Name) (args : List Arg) (n : Ns) : Reaches cpp20 form f args n ↔
    (n = .bit ∧ .bit ∈ form.namespaces args ∧ BitTakes f args ∧ ¬ (.std ∈ form.namespaces args ∧ StdTakes cpp20 f args ∧ (f = .swap ∨ ValueIsRef f args))) ∨
      (n = .std ∧ .std ∈ form.namespaces args ∧ StdTakes cpp20 f args ∧ (¬ (.bit ∈ form.namespaces args ∧ BitTakes f args) ∨ ValueIsRef f args)) := by
  cases n <;> simp [Reaches, mem_namespaces]

theorem no_ref {f : Name} {args : List Arg} (h : ¬ (f = .fill ∨ f = .find ∨ f = .count)) : ¬ ValueIsRef f args := fun v => h v.1

theorem callee_three (cpp20 : Bool) (form : Form) (f : Name) (hf : f = .copy ∨ f = .copyBackward ∨ f = .move ∨ f = .swapRanges) (args : List Arg) (n : Ns) :
    Chosen (callee cpp20 form f args) n ↔ Reaches cpp20 form f args n := by
  have hn : ¬ ValueIsRef f args := no_ref (by rcases hf with h | h | h | h <;> simp [h])
  have hsw : f ≠ .swap := by rcases hf with h | h | h | h <;> simp [h]
  have e1 : bitTmpls f = [⟨.bit, [.bits 0, .bits 0, .bits 1], [], false⟩] := by rcases hf with h | h | h | h <;> simp [h, bitTmpls]
  have e2 : stdTmpls cpp20 f = [⟨.std, [.any 0, .any 0, .any 1], [], false⟩] := by rcases hf with h | h | h | h <;> simp [h, stdTmpls]
  have e3 : BitTakes f args ↔ ∃ t u, args.map Arg.ty = [.it t, .it t, .it u] := by rcases hf with h | h | h | h <;> simp [h, BitTakes]
  have e4 : StdTakes cpp20 f args ↔ ∃ a b, args.map Arg.ty = [a, a, b] := by rcases hf with h | h | h | h <;> simp [h, StdTakes]
  rw [reaches_iff, callee, candidates, e1, e2, e3, e4]
  rw [pair (PB := ∃ t u, args.map Arg.ty = [.it t, .it t, .it u]) (PS := ∃ a b, args.map Arg.ty = [a, a, b]) (VR := False) rfl rfl
    (by simp [v_copy]) (by simp [w_copy])
    (fun r s h1 h2 => by
      rw [v_copy] at h1; rw [w_copy] at h2
      rw [← h1.2, ← h2.2]
      exact ⟨fun _ => by decide, False.elim⟩)]
  simp [hn, hsw]

theorem valueIsRef_iff {f : Name} (hf : f = .fill ∨ f = .find ∨ f = .count) {args : List Arg} {a b x : Ty} (e : args.map Arg.ty = [a, b, x]) :
    ValueIsRef f args ↔ x.IsRef := by
  rcases args with _ | ⟨a, _ | ⟨b, _ | ⟨c, _ | ⟨d, l⟩⟩⟩⟩ <;> simp at e
  obtain ⟨_, _, rfl⟩ := e
  exact ⟨fun ⟨_, _, _, _, h, hx⟩ => by
    simp at h
    rw [h.2.2]; exact hx, fun h => ⟨hf, a, b, c, rfl, h⟩⟩

theorem fill_takes (args : List Arg) : (∃ r t x, args.map Arg.ty = [.it t, .it t, x] ∧ ((x = .value ∧ [1, 1, 1] = r) ∨ (x.IsRef ∧ [1, 1, 4] = r))) ↔
    ∃ t x, args.map Arg.ty = [.it t, .it t, x] ∧ x.IsBit := by
  constructor
  · rintro ⟨r, t, x, e, h⟩
    exact ⟨t, x, e, h.elim (fun h => Or.inl h.1) fun h => Or.inr h.1⟩
  · rintro ⟨t, x, e, h | h⟩
    · exact ⟨_, t, x, e, Or.inl ⟨h, rfl⟩⟩
    · exact ⟨_, t, x, e, Or.inr ⟨h, rfl⟩⟩

theorem callee_fill (cpp20 : Bool) (form : Form) (f : Name) (hf : f = .fill ∨ f = .find) (args : List Arg) (n : Ns) :
    Chosen (callee cpp20 form f args) n ↔ Reaches cpp20 form f args n := by
  have hsw : f ≠ .swap := by rcases hf with h | h <;> simp [h]
  have e1 : bitTmpls f = [⟨.bit, [.bits 0, .bits 0, .value], [], false⟩] := by rcases hf with h | h <;> simp [h, bitTmpls]
  have e2 : stdTmpls cpp20 f = [⟨.std, [.any 0, .any 0, .anyC 1], [], false⟩] := by rcases hf with h | h <;> simp [h, stdTmpls]
  have e3 : BitTakes f args ↔ ∃ t x, args.map Arg.ty = [.it t, .it t, x] ∧ x.IsBit := by rcases hf with h | h <;> simp [h, BitTakes]
  have e4 : StdTakes cpp20 f args ↔ ∃ a b, args.map Arg.ty = [a, a, b] := by rcases hf with h | h <;> simp [h, StdTakes]
  rw [reaches_iff, callee, candidates, e1, e2, e3, e4]
  rw [pair (PB := ∃ t x, args.map Arg.ty = [.it t, .it t, x] ∧ x.IsBit) (PS := ∃ a b, args.map Arg.ty = [a, a, b]) (VR := ValueIsRef f args) rfl rfl
    (by simp only [v_fill]; exact fill_takes args) (by simp [w_fill])
    (fun r s h1 h2 => by
      obtain ⟨t, x, e, h1⟩ := (v_fill args r).1 h1
      have e5 : ValueIsRef f args ↔ x.IsRef := valueIsRef_iff (by rcases hf with h | h <;> simp [h]) e
      rw [w_fill] at h2
      rw [e5, ← h2.2]
      rcases h1 with ⟨hx, rfl⟩ | ⟨hx, rfl⟩
      · exact ⟨fun _ => by decide, fun h => absurd h (by simp [hx, Ty.IsRef])⟩
      · exact ⟨fun h => absurd hx h, fun _ => by decide⟩)]
  simp [hsw]

theorem callee_count (cpp20 : Bool) (form : Form) (f : Name) (hf : f = .count) (args : List Arg) (n : Ns) :
    Chosen (callee cpp20 form f args) n ↔ Reaches cpp20 form f args n := by
  have hsw : f ≠ .swap := by simp [hf]
  have e1 : bitTmpls f = [⟨.bit, [.bits 0, .bits 0, .value], [], false⟩] := by simp [hf, bitTmpls]
  have e2 : stdTmpls cpp20 f = [⟨.std, [.any 0, .any 0, .anyC 1], [0], false⟩] := by simp [hf, stdTmpls]
  have e3 : BitTakes f args ↔ ∃ t x, args.map Arg.ty = [.it t, .it t, x] ∧ x.IsBit := by simp [hf, BitTakes]
  have e4 : StdTakes cpp20 f args ↔ ∃ a b, args.map Arg.ty = [a, a, b] ∧ a.IsIterator := by simp [hf, StdTakes]
  rw [reaches_iff, callee, candidates, e1, e2, e3, e4]
  rw [pair (PB := ∃ t x, args.map Arg.ty = [.it t, .it t, x] ∧ x.IsBit) (PS := ∃ a b, args.map Arg.ty = [a, a, b] ∧ a.IsIterator) (VR := ValueIsRef f args) rfl rfl
    (by simp only [v_fill]; exact fill_takes args) (by simp [w_count])
    (fun r s h1 h2 => by
      obtain ⟨t, x, e, h1⟩ := (v_fill args r).1 h1
      have e5 : ValueIsRef f args ↔ x.IsRef := valueIsRef_iff (by simp [hf]) e
      rw [w_count] at h2
      rw [e5, ← h2.2]
      rcases h1 with ⟨hx, rfl⟩ | ⟨hx, rfl⟩
      · exact ⟨fun _ => by decide, fun h => absurd h (by simp [hx, Ty.IsRef])⟩
      · exact ⟨fun h => absurd hx h, fun _ => by decide⟩)]
  simp [hsw]

theorem callee_reverse (cpp20 : Bool) (form : Form) (f : Name) (hf : f = .reverse) (args : List Arg) (n : Ns) :
    Chosen (callee cpp20 form f args) n ↔ Reaches cpp20 form f args n := by
  have hn : ¬ ValueIsRef f args := no_ref (by simp [hf])
  have hsw : f ≠ .swap := by simp [hf]
  have e1 : bitTmpls f = [⟨.bit, [.bits 0, .bits 0], [], false⟩] := by simp [hf, bitTmpls]
  have e2 : stdTmpls cpp20 f = [⟨.std, [.any 0, .any 0], [], false⟩] := by simp [hf, stdTmpls]
  have e3 : BitTakes f args ↔ ∃ t, args.map Arg.ty = [.it t, .it t] := by simp [hf, BitTakes]
  have e4 : StdTakes cpp20 f args ↔ ∃ a, args.map Arg.ty = [a, a] := by simp [hf, StdTakes]
  rw [reaches_iff, callee, candidates, e1, e2, e3, e4]
  rw [pair (PB := ∃ t, args.map Arg.ty = [.it t, .it t]) (PS := ∃ a, args.map Arg.ty = [a, a]) (VR := False) rfl rfl
    (by simp [v_two]) (by simp [w_two])
    (fun r s h1 h2 => by
      rw [v_two] at h1; rw [w_two] at h2
      rw [← h1.2, ← h2.2]
      exact ⟨fun _ => by decide, False.elim⟩)]
  simp [hn, hsw]

theorem callee_distance (cpp20 : Bool) (form : Form) (f : Name) (hf : f = .distance) (args : List Arg) (n : Ns) :
    Chosen (callee cpp20 form f args) n ↔ Reaches cpp20 form f args n := by
  have hn : ¬ ValueIsRef f args := no_ref (by simp [hf])
  have hsw : f ≠ .swap := by simp [hf]
  have e1 : bitTmpls f = [⟨.bit, [.bits 0, .bits 0], [], false⟩] := by simp [hf, bitTmpls]
  have e2 : stdTmpls cpp20 f = [⟨.std, [.any 0, .any 0], [0], false⟩] := by simp [hf, stdTmpls]
  have e3 : BitTakes f args ↔ ∃ t, args.map Arg.ty = [.it t, .it t] := by simp [hf, BitTakes]
  have e4 : StdTakes cpp20 f args ↔ ∃ a, args.map Arg.ty = [a, a] ∧ a.IsIterator := by simp [hf, StdTakes]
  rw [reaches_iff, callee, candidates, e1, e2, e3, e4]
  rw [pair (PB := ∃ t, args.map Arg.ty = [.it t, .it t]) (PS := ∃ a, args.map Arg.ty = [a, a] ∧ a.IsIterator) (VR := False) rfl rfl
    (by simp [v_two]) (by simp [w_distance])
    (fun r s h1 h2 => by
      rw [v_two] at h1; rw [w_distance] at h2
      rw [← h1.2, ← h2.2]
      exact ⟨fun _ => by decide, False.elim⟩)]
  simp [hn, hsw]

theorem callee_rotate (cpp20 : Bool) (form : Form) (f : Name) (hf : f = .rotate) (args : List Arg) (n : Ns) :
    Chosen (callee cpp20 form f args) n ↔ Reaches cpp20 form f args n := by
  have hn : ¬ ValueIsRef f args := no_ref (by simp [hf])
  have hsw : f ≠ .swap := by simp [hf]
  have e1 : bitTmpls f = [⟨.bit, [.bits 0, .bits 0, .bits 0], [], false⟩] := by simp [hf, bitTmpls]
  have e2 : stdTmpls cpp20 f = [⟨.std, [.any 0, .any 0, .any 0], [], false⟩] := by simp [hf, stdTmpls]
  have e3 : BitTakes f args ↔ ∃ t, args.map Arg.ty = [.it t, .it t, .it t] := by simp [hf, BitTakes]
  have e4 : StdTakes cpp20 f args ↔ ∃ a, args.map Arg.ty = [a, a, a] := by simp [hf, StdTakes]
  rw [reaches_iff, callee, candidates, e1, e2, e3, e4]
  rw [pair (PB := ∃ t, args.map Arg.ty = [.it t, .it t, .it t]) (PS := ∃ a, args.map Arg.ty = [a, a, a]) (VR := False) rfl rfl
    (by simp [v_three]) (by simp [w_three])
    (fun r s h1 h2 => by
      rw [v_three] at h1; rw [w_three] at h2
      rw [← h1.2, ← h2.2]
      exact ⟨fun _ => by decide, False.elim⟩)]
  simp [hn, hsw]

theorem callee_advance (cpp20 : Bool) (form : Form) (f : Name) (hf : f = .advance) (args : List Arg) (n : Ns) :
    Chosen (callee cpp20 form f args) n ↔ Reaches cpp20 form f args n := by
  have hn : ¬ ValueIsRef f args := no_ref (by simp [hf])
  have hsw : f ≠ .swap := by simp [hf]
  have e1 : bitTmpls f = [⟨.bit, [.bitsL 0, .any 1], [], false⟩] := by simp [hf, bitTmpls]
  have e2 : stdTmpls cpp20 f = [⟨.std, [.anyL 0, .any 1], [], false⟩] := by simp [hf, stdTmpls]
  have e3 : BitTakes f args ↔ ∃ t x, args = [⟨.it t, .lvalue⟩, x] := by simp [hf, BitTakes]
  have e4 : StdTakes cpp20 f args ↔ ∃ a x, args = [a, x] ∧ a.cat ≠ .rvalue := by simp [hf, StdTakes]
  rw [reaches_iff, callee, candidates, e1, e2, e3, e4]
  rw [pair (PB := ∃ t x, args = [⟨.it t, .lvalue⟩, x]) (PS := ∃ a x, args = [a, x] ∧ a.cat ≠ .rvalue) (VR := False) rfl rfl
    (by simp [v_advance]) (by simp [w_advance])
    (fun r s h1 h2 => by
      rw [v_advance] at h1; rw [w_advance] at h2
      rw [← h1.2, ← h2.2]
      exact ⟨fun _ => by decide, False.elim⟩)]
  simp [hn, hsw]

theorem callee_shift (cpp20 : Bool) (form : Form) (f : Name) (hf : f = .shiftLeft ∨ f = .shiftRight) (args : List Arg) (n : Ns) :
    Chosen (callee cpp20 form f args) n ↔ Reaches cpp20 form f args n := by
  have hn : ¬ ValueIsRef f args := no_ref (by rcases hf with h | h <;> simp [h])
  have hsw : f ≠ .swap := by rcases hf with h | h <;> simp [h]
  have e1 : bitTmpls f = [⟨.bit, [.bits 0, .bits 0, .diff 0], [], false⟩] := by rcases hf with h | h <;> simp [h, bitTmpls]
  have e2 : stdTmpls cpp20 f = if cpp20 = true then [⟨.std, [.any 0, .any 0, .diff 0], [0], false⟩] else [] := by rcases hf with h | h <;> simp [h, stdTmpls]
  have e3 : BitTakes f args ↔ ∃ t n, args.map Arg.ty = [.it t, .it t, .num n] := by rcases hf with h | h <;> simp [h, BitTakes]
  have e4 : StdTakes cpp20 f args ↔ cpp20 = true ∧ ∃ a n, args.map Arg.ty = [a, a, .num n] ∧ a.IsIterator := by
    rcases hf with h | h <;> simp [h, StdTakes]
  have e5 : (if Ns.std ∈ form.namespaces args then stdTmpls cpp20 f else []) =
      if (Ns.std ∈ form.namespaces args ∧ cpp20 = true) then [⟨.std, [.any 0, .any 0, .diff 0], [0], false⟩] else [] := by
    rw [e2]
    by_cases h1 : Ns.std ∈ form.namespaces args <;> cases cpp20 <;> simp [h1]
  rw [reaches_iff, callee, candidates, e1, e5, e3, e4]
  rw [pair (PB := ∃ t n, args.map Arg.ty = [.it t, .it t, .num n]) (PS := ∃ a n, args.map Arg.ty = [a, a, .num n] ∧ a.IsIterator) (VR := False) rfl rfl
    (by simp only [v_shift]; exact ⟨fun ⟨_, t, n, h, _⟩ => ⟨t, n, h⟩, fun ⟨t, n, h⟩ => ⟨_, t, n, h, rfl⟩⟩)
    (by simp only [w_shift]; exact ⟨fun ⟨_, t, n, h, h', _⟩ => ⟨t, n, h, h'⟩, fun ⟨t, n, h, h'⟩ => ⟨_, t, n, h, h', rfl⟩⟩)
    (fun r s h1 h2 => by
      obtain ⟨t, n, h, hr⟩ := (v_shift args r).1 h1
      obtain ⟨t', n', h', _, hs⟩ := (w_shift args s).1 h2
      have e : n = n' := by rw [h] at h'; simp at h'; exact h'.2
      rw [← hr, ← hs, ← e]
      refine ⟨fun _ => ?_, False.elim⟩
      split <;> decide)]
  simp [hn, hsw, and_assoc]

theorem callee_equal (cpp20 : Bool) (form : Form) (args : List Arg) (n : Ns) :
    Chosen (callee cpp20 form .equal args) n ↔ Reaches cpp20 form .equal args n := by
  have hn : ¬ ValueIsRef .equal args := no_ref (by simp)
  rw [reaches_iff, callee, candidates]
  by_cases h3 : args.length = 3
  · have e4 : StdTakes cpp20 .equal args ↔ ∃ a b, args.map Arg.ty = [a, a, b] := by
      simp only [StdTakes]
      constructor
      · rintro ⟨a, b, c, h | h | h⟩
        · exact ⟨a, b, h⟩
        all_goals have := congrArg List.length h; simp [h3] at this
      · rintro ⟨a, b, h⟩
        exact ⟨a, b, b, Or.inl h⟩
    rw [viables_len h3]
    have e : ∀ (p q : Prop) [Decidable p] [Decidable q], ((if p then bitTmpls .equal else []) ++ (if q then stdTmpls cpp20 .equal else [])).filter
        (fun f => f.params.length == 3) = (if p then [⟨.bit, [.bits 0, .bits 0, .bits 1], [], false⟩] else []) ++
          (if q then [⟨.std, [.any 0, .any 0, .any 1], [], false⟩] else []) := by
      intro p q _ _
      by_cases hp : p <;> by_cases hq : q <;> simp [hp, hq, bitTmpls, stdTmpls]
    rw [e, e4]
    rw [pair (PB := BitTakes .equal args) (PS := ∃ a b, args.map Arg.ty = [a, a, b]) (VR := False) rfl rfl
      (by simp [v_copy, BitTakes]) (by simp [w_copy])
      (fun r s h1 h2 => by
        rw [v_copy] at h1; rw [w_copy] at h2
        rw [← h1.2, ← h2.2]
        exact ⟨fun _ => by decide, False.elim⟩)]
    simp [hn]
  · have hb : ¬ BitTakes .equal args := by
      rintro ⟨t, u, h⟩
      exact h3 (by simpa using congrArg List.length h)
    have hbn : (if Ns.bit ∈ form.namespaces args then bitTmpls .equal else []).filter (fun f => f.params.length == args.length) = [] := by
      split <;> simp [bitTmpls, Ne.symm h3]
    rw [viables_filter, List.filter_append, hbn, List.nil_append]
    by_cases hv : Ns.std ∈ form.namespaces args
    case neg => simp [hv, hb, viables_nil, best_nil, Chosen]
    simp only [hv, if_true, stdTmpls, hb, and_false, not_false_iff, true_or, and_true, false_and, false_or, true_and]
    by_cases h4 : args.length = 4
    · have e4 : StdTakes cpp20 .equal args ↔ ∃ a b c, args.map Arg.ty = [a, a, b, c] := by
        simp only [StdTakes]
        constructor
        · rintro ⟨a, b, c, h | h | h⟩
          · exact absurd (by simpa using congrArg List.length h) h3
          · exact ⟨a, b, c, h⟩
          · have := congrArg List.length h
            simp [h4] at this
        · rintro ⟨a, b, c, h⟩
          exact ⟨a, b, c, Or.inr (Or.inl h)⟩
      rw [e4, h4]
      simp only [List.filter, List.length_cons, List.length_nil, Nat.reduceAdd, Nat.reduceBEq, viables_cons, viables_nil, List.append_nil]
      rcases hx : Tmpl.viable ⟨.std, [.any 0, .any 0, .any 1, .any 2], [], false⟩ args with _ | r
      · have hno : ¬ ∃ a b c, args.map Arg.ty = [a, a, b, c] := fun h => by
          have := (w_equal4 args _).2 ⟨h, rfl⟩
          rw [hx] at this; cases this
        rcases hy : Tmpl.viable ⟨.std, [.any 0, .any 0, .any 1, .any 1], [], false⟩ args with _ | r
        · simp [best_nil, Chosen, hno]
        · obtain ⟨⟨a, b, h⟩, _⟩ := (w_equal4b args _).1 hy
          exact absurd ⟨a, b, b, h⟩ hno
      · obtain ⟨h, rfl⟩ := (w_equal4 args _).1 hx
        rcases hy : Tmpl.viable ⟨.std, [.any 0, .any 0, .any 1, .any 1], [], false⟩ args with _ | r
        · simp only [h, and_true]; simp [best_one, Chosen, eq_comm]
        · obtain ⟨_, rfl⟩ := (w_equal4b args _).1 hy
          have e : best [((⟨.std, [.any 0, .any 0, .any 1, .any 2], [], false⟩ : Tmpl), [1, 1, 1, 1]), (⟨.std, [.any 0, .any 0, .any 1, .any 1], [], false⟩, [1, 1, 1, 1])] =
              some ⟨.std, [.any 0, .any 0, .any 1, .any 1], [], false⟩ := by decide
          simp only [List.cons_append, List.nil_append]
          rw [e]
          simp only [h, and_true]; simp [Chosen, eq_comm]
    · have e4 : StdTakes cpp20 .equal args ↔ ∃ a b c, args.map Arg.ty = [a, a, b, b, c] := by
        simp only [StdTakes]
        constructor
        · rintro ⟨a, b, c, h | h | h⟩
          · exact absurd (by simpa using congrArg List.length h) h3
          · exact absurd (by simpa using congrArg List.length h) h4
          · exact ⟨a, b, c, h⟩
        · rintro ⟨a, b, c, h⟩
          exact ⟨a, b, c, Or.inr (Or.inr h)⟩
      rw [← viables_filter, e4]
      simp only [viables_cons, viables_nil, List.append_nil]
      have n1 : Tmpl.viable ⟨.std, [.any 0, .any 0, .any 1], [], false⟩ args = none := by
        rcases hx : Tmpl.viable _ args with _ | r
        · rfl
        · exact absurd (viable_length hx).symm h3
      have n2 : Tmpl.viable ⟨.std, [.any 0, .any 0, .any 1, .any 2], [], false⟩ args = none := by
        rcases hx : Tmpl.viable _ args with _ | r
        · rfl
        · exact absurd (viable_length hx).symm h4
      have n3 : Tmpl.viable ⟨.std, [.any 0, .any 0, .any 1, .any 1], [], false⟩ args = none := by
        rcases hx : Tmpl.viable _ args with _ | r
        · rfl
        · exact absurd (viable_length hx).symm h4
      rw [n1, n2, n3]
      rcases hx : Tmpl.viable ⟨.std, [.any 0, .any 0, .any 1, .any 1, .any 2], [], false⟩ args with _ | r
      · have hno : ¬ ∃ a b c, args.map Arg.ty = [a, a, b, b, c] := fun h => by
          have := (w_equal5 args _).2 ⟨h, rfl⟩
          rw [hx] at this; cases this
        simp [best_nil, Chosen, hno]
      · obtain ⟨h, _⟩ := (w_equal5 args _).1 hx
        simp only [h, and_true]; simp [best_one, Chosen, eq_comm]

theorem callee_transform (cpp20 : Bool) (form : Form) (args : List Arg) (n : Ns) :
    Chosen (callee cpp20 form .transform args) n ↔ Reaches cpp20 form .transform args n := by
  have hn : ¬ ValueIsRef .transform args := no_ref (by simp)
  rw [reaches_iff, callee, candidates]
  by_cases h4 : args.length = 4
  · have e3 : BitTakes .transform args ↔ ∃ t x, args.map Arg.ty = [.it t, .it t, .it t, x] := by
      simp only [BitTakes]
      exact ⟨fun ⟨t, x, h⟩ => ⟨t, x, h.elim id fun h => absurd (congrArg List.length h) (by simp [h4])⟩, fun ⟨t, x, h⟩ => ⟨t, x, Or.inl h⟩⟩
    have e4 : StdTakes cpp20 .transform args ↔ ∃ a b c, args.map Arg.ty = [a, a, b, c] := by
      simp only [StdTakes]
      exact ⟨fun ⟨a, b, c, x, h⟩ => ⟨a, b, c, h.elim id fun h => absurd (congrArg List.length h) (by simp [h4])⟩, fun ⟨a, b, c, h⟩ => ⟨a, b, c, c, Or.inl h⟩⟩
    rw [viables_len h4]
    have e : ∀ (p q : Prop) [Decidable p] [Decidable q], ((if p then bitTmpls .transform else []) ++ (if q then stdTmpls cpp20 .transform else [])).filter
        (fun f => f.params.length == 4) = (if p then [⟨.bit, [.bits 0, .bits 0, .bits 0, .any 1], [], false⟩] else []) ++
          (if q then [⟨.std, [.any 0, .any 0, .any 1, .any 2], [], false⟩] else []) := by
      intro p q _ _
      by_cases hp : p <;> by_cases hq : q <;> simp [hp, hq, bitTmpls, stdTmpls]
    rw [e, e3, e4]
    rw [pair (PB := ∃ t x, args.map Arg.ty = [.it t, .it t, .it t, x]) (PS := ∃ a b c, args.map Arg.ty = [a, a, b, c]) (VR := False) rfl rfl
      (by simp [v_tr1]) (by simp [w_equal4])
      (fun r s h1 h2 => by
        rw [v_tr1] at h1; rw [w_equal4] at h2
        rw [← h1.2, ← h2.2]
        exact ⟨fun _ => by decide, False.elim⟩)]
    simp [hn]
  · have e3 : BitTakes .transform args ↔ ∃ t x, args.map Arg.ty = [.it t, .it t, .it t, .it t, x] := by
      simp only [BitTakes]
      exact ⟨fun ⟨t, x, h⟩ => ⟨t, x, h.elim (fun h => absurd (by simpa using congrArg List.length h) h4) id⟩, fun ⟨t, x, h⟩ => ⟨t, x, Or.inr h⟩⟩
    have e4 : StdTakes cpp20 .transform args ↔ ∃ a b c x, args.map Arg.ty = [a, a, b, c, x] := by
      simp only [StdTakes]
      exact ⟨fun ⟨a, b, c, x, h⟩ => ⟨a, b, c, x, h.elim (fun h => absurd (by simpa using congrArg List.length h) h4) id⟩, fun ⟨a, b, c, x, h⟩ => ⟨a, b, c, x, Or.inr h⟩⟩
    have e : ∀ (p q : Prop) [Decidable p] [Decidable q], viables ((if p then bitTmpls .transform else []) ++ (if q then stdTmpls cpp20 .transform else [])) args =
        viables ((if p then [⟨.bit, [.bits 0, .bits 0, .bits 0, .bits 0, .any 1], [], false⟩] else []) ++
          (if q then [⟨.std, [.any 0, .any 0, .any 1, .any 2, .any 3], [], false⟩] else [])) args := by
      intro p q _ _
      have n1 : Tmpl.viable ⟨.bit, [.bits 0, .bits 0, .bits 0, .any 1], [], false⟩ args = none := by
        rcases hx : Tmpl.viable _ args with _ | r
        · rfl
        · exact absurd (viable_length hx).symm h4
      have n2 : Tmpl.viable ⟨.std, [.any 0, .any 0, .any 1, .any 2], [], false⟩ args = none := by
        rcases hx : Tmpl.viable _ args with _ | r
        · rfl
        · exact absurd (viable_length hx).symm h4
      by_cases hp : p <;> by_cases hq : q <;> simp [hp, hq, bitTmpls, stdTmpls, viables_cons, n1, n2]
    rw [e, e3, e4]
    rw [pair (PB := ∃ t x, args.map Arg.ty = [.it t, .it t, .it t, .it t, x]) (PS := ∃ a b c x, args.map Arg.ty = [a, a, b, c, x]) (VR := False) rfl rfl
      (by simp [v_tr2]) (by simp [w_tr5])
      (fun r s h1 h2 => by
        rw [v_tr2] at h1; rw [w_tr5] at h2
        rw [← h1.2, ← h2.2]
        exact ⟨fun _ => by decide, False.elim⟩)]
    simp [hn]

open Classical in
theorem viable_ite {f : Tmpl} {args : List Arg} {P : Prop} {k : List Nat} (h : ∀ r, f.viable args = some r ↔ P ∧ k = r) :
    f.viable args = if P then some k else none := by
  rcases hx : f.viable args with _ | r
  · by_cases hp : P
    · have := (h k).2 ⟨hp, rfl⟩
      rw [hx] at this; cases this
    · simp [hp]
  · obtain ⟨hp, rfl⟩ := (h r).1 hx
    simp [hp]

theorem callee_swap (cpp20 : Bool) (form : Form) (args : List Arg) (n : Ns) :
    Chosen (callee cpp20 form .swap args) n ↔ Reaches cpp20 form .swap args n := by
  have hn : ¬ ValueIsRef .swap args := no_ref (by simp)
  rw [reaches_iff, callee, candidates, viables_append]
  have e1 : viables (if Ns.bit ∈ form.namespaces args then bitTmpls .swap else []) args = if Ns.bit ∈ form.namespaces args then viables (bitTmpls .swap) args else [] := by
    split <;> rfl
  have e2 : viables (if Ns.std ∈ form.namespaces args then stdTmpls cpp20 .swap else []) args =
      if Ns.std ∈ form.namespaces args then viables (stdTmpls cpp20 .swap) args else [] := by
    split <;> rfl
  rw [e1, e2]
  simp only [bitTmpls, stdTmpls, viables_cons, viables_nil, List.append_nil]
  rw [viable_ite (v_swap1 args), viable_ite (v_swap2 args), viable_ite (v_swap3 args), viable_ite (w_swap args)]
  have ebit : BitTakes .swap args ↔ (∃ a b, args = [a, b] ∧ a.ty.IsRef ∧ b.ty.IsRef) ∨ (∃ a b, args = [a, b] ∧ a.ty.IsRef ∧ b = ⟨.value, .lvalue⟩) ∨
      (∃ a b, args = [a, b] ∧ a = ⟨.value, .lvalue⟩ ∧ b.ty.IsRef) := by
    simp only [BitTakes]
    constructor
    · rintro ⟨a, b, e, ⟨h, h' | h'⟩ | h⟩
      · exact Or.inl ⟨a, b, e, h, h'⟩
      · exact Or.inr (Or.inl ⟨a, b, e, h, h'⟩)
      · exact Or.inr (Or.inr ⟨a, b, e, h⟩)
    · rintro (⟨a, b, e, h, h'⟩ | ⟨a, b, e, h, h'⟩ | ⟨a, b, e, h⟩)
      · exact ⟨a, b, e, Or.inl ⟨h, Or.inl h'⟩⟩
      · exact ⟨a, b, e, Or.inl ⟨h, Or.inr h'⟩⟩
      · exact ⟨a, b, e, Or.inr h⟩
  have estd : StdTakes cpp20 .swap args ↔ ∃ t, args = [⟨t, .lvalue⟩, ⟨t, .lvalue⟩] ∧ ∀ u, t = .it u → u.top = false := Iff.rfl
  rw [ebit, estd]
  generalize hq : (∃ t, args = [⟨t, .lvalue⟩, ⟨t, .lvalue⟩] ∧ ∀ u, t = .it u → u.top = false) = Q
  generalize hp1 : (∃ a b, args = [a, b] ∧ a.ty.IsRef ∧ b.ty.IsRef) = P1
  generalize hp2 : (∃ a b, args = [a, b] ∧ a.ty.IsRef ∧ b = ⟨.value, .lvalue⟩) = P2
  generalize hp3 : (∃ a b, args = [a, b] ∧ a = ⟨.value, .lvalue⟩ ∧ b.ty.IsRef) = P3
  have x12 : P1 → ¬ P2 := by
    rw [← hp1, ← hp2]; rintro ⟨a, b, rfl, _, c, h⟩ ⟨a', b', e, _, h'⟩
    simp at e; rw [e.2, h'] at h; cases h
  have x13 : P1 → ¬ P3 := by
    rw [← hp1, ← hp3]; rintro ⟨a, b, rfl, ⟨c, h⟩, _⟩ ⟨a', b', e, h', _⟩
    simp at e; rw [e.1, h'] at h; cases h
  have x23 : P2 → ¬ P3 := by
    rw [← hp2, ← hp3]; rintro ⟨a, b, rfl, ⟨c, h⟩, _⟩ ⟨a', b', e, h', _⟩
    simp at e; rw [e.1, h'] at h; cases h
  have x2q : P2 → ¬ Q := by
    rw [← hp2, ← hq]; rintro ⟨a, b, rfl, ⟨c, h⟩, h'⟩ ⟨t, e, _⟩
    simp at e; rw [e.1] at h; rw [e.2] at h'; simp at h h'; rw [h] at h'; cases h'
  have x3q : P3 → ¬ Q := by
    rw [← hp3, ← hq]; rintro ⟨a, b, rfl, h', ⟨c, h⟩⟩ ⟨t, e, _⟩
    simp at e; rw [e.2] at h; rw [e.1] at h'; simp at h h'; rw [h] at h'; cases h'
  have amb : best [((⟨.bit, [.refs 0, .refs 1], [], false⟩ : Tmpl), [1, 1]), (⟨.std, [.anyL 0, .anyL 0], [], true⟩, [1, 1])] = none := by decide
  by_cases p1 : P1
  · have := x12 p1; have := x13 p1
    by_cases q : Q <;> by_cases h1 : Ns.bit ∈ form.namespaces args <;> by_cases h2 : Ns.std ∈ form.namespaces args <;>
      simp [*, best_nil, best_one, Chosen, eq_comm]
  · by_cases p2 : P2
    · have := x23 p2; have := x2q p2
      by_cases h1 : Ns.bit ∈ form.namespaces args <;> by_cases h2 : Ns.std ∈ form.namespaces args <;>
        simp [*, best_nil, best_one, Chosen, eq_comm]
    · by_cases p3 : P3
      · have := x3q p3
        by_cases h1 : Ns.bit ∈ form.namespaces args <;> by_cases h2 : Ns.std ∈ form.namespaces args <;>
          simp [*, best_nil, best_one, Chosen, eq_comm]
      · by_cases q : Q <;> by_cases h1 : Ns.bit ∈ form.namespaces args <;> by_cases h2 : Ns.std ∈ form.namespaces args <;>
          simp [*, best_nil, best_one, Chosen, eq_comm]

theorem callee_reaches (cpp20 : Bool) (form : Form) (f : Name) (args : List Arg) (n : Ns) :
    Chosen (callee cpp20 form f args) n ↔ Reaches cpp20 form f args n := by
  cases f
  case swap => exact callee_swap cpp20 form args n
  case equal => exact callee_equal cpp20 form args n
  case transform => exact callee_transform cpp20 form args n
  case shiftLeft => exact callee_shift cpp20 form _ (Or.inl rfl) args n
  case shiftRight => exact callee_shift cpp20 form _ (Or.inr rfl) args n
  case copy => exact callee_three cpp20 form _ (by simp) args n
  case copyBackward => exact callee_three cpp20 form _ (by simp) args n
  case move => exact callee_three cpp20 form _ (by simp) args n
  case swapRanges => exact callee_three cpp20 form _ (by simp) args n
  case fill => exact callee_fill cpp20 form _ (by simp) args n
  case find => exact callee_fill cpp20 form _ (by simp) args n
  case count => exact callee_count cpp20 form _ rfl args n
  case reverse => exact callee_reverse cpp20 form _ rfl args n
  case distance => exact callee_distance cpp20 form _ rfl args n
  case rotate => exact callee_rotate cpp20 form _ rfl args n
  case advance => exact callee_advance cpp20 form _ rfl args n

end BitLib.Lookup
