import Verif.Model.Lookup
import Verif.SpecConst
/- What a call of an algorithm reaches, without templates: which lists of arguments the functions of the two namespaces take, and which is chosen. -/
namespace BitLib.Lookup

/-- A `bit_value` or a `bit_reference`. -/
def Ty.IsBit (t : Ty) : Prop := t = .value ∨ ∃ c, t = .ref c
def Ty.IsRef (t : Ty) : Prop := ∃ c, t = .ref c

/-- An iterator, over bits or anything else. -/
def Ty.IsIterator (t : Ty) : Prop := (∃ u, t = .it u) ∨ (∃ i, t = .word i) ∨ ∃ s k, t = .iter s k

/-- A class of the library, of the standard library, or made from one. -/
def Ty.Belongs (t : Ty) : Ns → Prop
  | .bit => (∃ u, t = .it u) ∨ t.IsBit
  | .std => (∃ u, t = .it u ∧ (u.it = .vec ∨ u.it = .cvec)) ∨ t = .word .vec ∨ t = .word .cvec ∨ (∃ k, t = .iter true k) ∨ ∃ k, t = .fn true k

/-- Functions of the namespace are among those that the call chooses from. -/
def Form.Sees (args : List Arg) (n : Ns) : Form → Prop
  | .qualified m => m = n
  | .plain visible => n ∈ visible ∨ ∃ a ∈ args, a.ty.Belongs n

/-- A function of namespace `bit` takes the arguments: two iterators of one type for a range, and for `rotate` and `transform` all iterators of one type. -/
def BitTakes (f : Name) (args : List Arg) : Prop :=
  match f with
  | .copy | .copyBackward | .move | .equal | .swapRanges => ∃ t u, args.map Arg.ty = [.it t, .it t, .it u]
  | .fill | .find | .count => ∃ t x, args.map Arg.ty = [.it t, .it t, x] ∧ x.IsBit
  | .reverse | .distance => ∃ t, args.map Arg.ty = [.it t, .it t]
  | .rotate => ∃ t, args.map Arg.ty = [.it t, .it t, .it t]
  | .shiftLeft | .shiftRight => ∃ t n, args.map Arg.ty = [.it t, .it t, .num n]
  | .transform => ∃ t x, args.map Arg.ty = [.it t, .it t, .it t, x] ∨ args.map Arg.ty = [.it t, .it t, .it t, .it t, x]
  | .advance => ∃ t x, args = [⟨.it t, .lvalue⟩, x]
  | .swap => ∃ a b, args = [a, b] ∧ ((a.ty.IsRef ∧ (b.ty.IsRef ∨ b = ⟨.value, .lvalue⟩)) ∨ (a = ⟨.value, .lvalue⟩ ∧ b.ty.IsRef))

/-- A function of namespace `std` takes the arguments, whether or not its body can then be compiled. -/
def StdTakes (cpp20 : Bool) (f : Name) (args : List Arg) : Prop :=
  match f with
  | .copy | .copyBackward | .move | .swapRanges | .fill | .find => ∃ a b, args.map Arg.ty = [a, a, b]
  | .count => ∃ a b, args.map Arg.ty = [a, a, b] ∧ a.IsIterator
  | .equal => ∃ a b c, args.map Arg.ty = [a, a, b] ∨ args.map Arg.ty = [a, a, b, c] ∨ args.map Arg.ty = [a, a, b, b, c]
  | .reverse => ∃ a, args.map Arg.ty = [a, a]
  | .distance => ∃ a, args.map Arg.ty = [a, a] ∧ a.IsIterator
  | .rotate => ∃ a, args.map Arg.ty = [a, a, a]
  | .shiftLeft | .shiftRight => cpp20 = true ∧ ∃ a n, args.map Arg.ty = [a, a, .num n] ∧ a.IsIterator
  | .transform => ∃ a b c x, args.map Arg.ty = [a, a, b, c] ∨ args.map Arg.ty = [a, a, b, c, x]
  | .advance => ∃ a x, args = [a, x] ∧ a.cat ≠ .rvalue
  | .swap => ∃ t, args = [⟨t, .lvalue⟩, ⟨t, .lvalue⟩] ∧ ∀ u, t = .it u → u.top = false

/-- `fill`, `find` or `count` with a `bit_reference` in the place of the value, such as `v[0]` or `*it`. -/
def ValueIsRef (f : Name) (args : List Arg) : Prop :=
  (f = .fill ∨ f = .find ∨ f = .count) ∧ ∃ a b x, args = [a, b, x] ∧ x.ty.IsRef

/-- The call reaches a function of the namespace. A function of `bit` that takes the arguments is preferred, but not for a value that is a `bit_reference`, and
`swap` is ambiguous. -/
def Reaches (cpp20 : Bool) (form : Form) (f : Name) (args : List Arg) : Ns → Prop
  | .bit => form.Sees args .bit ∧ BitTakes f args ∧ ¬ (form.Sees args .std ∧ StdTakes cpp20 f args ∧ (f = .swap ∨ ValueIsRef f args))
  | .std => form.Sees args .std ∧ StdTakes cpp20 f args ∧ (¬ (form.Sees args .bit ∧ BitTakes f args) ∨ ValueIsRef f args)

/-- The types of the variables of a loop over a range of iterators of type `t`, and others. -/
def scope (t u x : ItTy) : Tys :=
  ⟨fun k => match k with | 0 => some t | 1 => some t | 2 => some u | 3 => some x | _ => none, fun _ => none, fun _ => none⟩

end BitLib.Lookup
