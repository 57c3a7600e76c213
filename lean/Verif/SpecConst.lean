import Verif.Model.Compile
/- What it means to have read-only access to a block of memory, and to make a program read-only. -/
namespace BitLib
variable {w : Nat}

/-- The program can reach block `b` only through iterators, references and pointers to `const` words: every variable that belongs to the block
has such a type. -/
structure ReadOnly (b : Nat) (Γ : Tys) (s : BlockSlots w) : Prop where
  it : ∀ k x, s.it k = some x → x.block = b → ∃ t, Γ.it k = some t ∧ t.it.const = true
  ref : ∀ k x, s.ref k = some x → x.block = b → ∃ t, Γ.ref k = some t ∧ t.word = true
  ptr : ∀ k x, s.ptr k = some x → x.block = b → Γ.ptr k = some true

/-- The operation has to change a bit, whatever the types. -/
def IOp.Changes : IOp → Prop
  | upd _ _ | assign _ _ | swap _ _ | swapVal _ _ => True
  | _ => False

def TOp.Changes (o : TOp) : Prop := o.erase.Changes

/-- The program calls no operation that changes a bit. -/
def TClient.Reads {α : Type} : TClient α → Prop
  | .done _ => True
  | .call op next => ¬ op.Changes ∧ ∀ a, (next a).Reads

/-- The same iterator over `const` words. -/
def WordIt.toConst : WordIt → WordIt
  | ptr _ => ptr true
  | vec | cvec => cvec

/-- The same type, for `const` words. -/
def ItTy.toConst (t : ItTy) : ItTy := ⟨t.it.toConst, t.top⟩
def RefTy.toConst (t : RefTy) : RefTy := ⟨t.obj, true⟩
def Tys.toConst (Γ : Tys) : Tys := ⟨fun k => (Γ.it k).map ItTy.toConst, fun k => (Γ.ref k).map RefTy.toConst, fun k => (Γ.ptr k).map fun _ => true⟩

/-- The same operation, where the types written in the program are for `const` words. -/
def TOp.toConst : TOp → TOp
  | op o => op o
  | convIt d i t => convIt d i t.toConst
  | assignIt d i => assignIt d i
  | convRef d r t => convRef d r t.toConst
  | convPtr d p _ => convPtr d p true
  | assignPtr d p => assignPtr d p

def TClient.toConst {α : Type} : TClient α → TClient α
  | .done x => .done x
  | .call op next => .call op.toConst fun a => (next a).toConst

/-- Operations that change an iterator in place. -/
def IOp.Moves : IOp → Prop
  | incIt _ | decIt _ | postIncIt _ _ | postDecIt _ _ | addAssignIt _ _ | subAssignIt _ _ => True
  | _ => False

/-- The program changes no iterator in place. -/
def Client.MovesNothing {α : Type} : Client α → Prop
  | .done _ => True
  | .call op next => ¬ op.Moves ∧ ∀ a, (next a).MovesNothing

/-- The program with all variables declared with `auto`. -/
def Client.typed {α : Type} : Client α → TClient α
  | .done x => .done x
  | .call op next => .call (.op op) fun a => (next a).typed

/-- The iterators are all `bit_iterator<It>`, or all `bit_iterator<const It>`. -/
def Tys.withTop (top : Bool) (Γ : Tys) : Tys := { Γ with it := fun k => (Γ.it k).map fun t => ⟨t.it, top⟩ }

/-- The variables without their blocks. -/
def BlockSlots.forget (s : BlockSlots w) : Slots (BitIter w) (BitRef w) (BitPtr w) :=
  ⟨fun k => (s.it k).map InBlock.val, fun k => (s.ref k).map InBlock.val, fun k => (s.ptr k).map InBlock.val⟩

/-- The comparisons are those of the addresses. -/
def Foreign.flat (bi : Bool) : Foreign w := ⟨fun c x y => x.cmp y c, fun c p q => BitPtr.cmp bi p q c⟩

/-- All variables belong to block `b`. -/
structure BlockSlots.AllIn (b : Nat) (s : BlockSlots w) : Prop where
  it : ∀ k x, s.it k = some x → x.block = b
  ref : ∀ k x, s.ref k = some x → x.block = b
  ptr : ∀ k x, s.ptr k = some x → x.block = b

end BitLib
