import Verif.Model.Lookup
import Verif.SpecConst
/- Lemmas for C102: with which iterators the loops of the standard library compile. -/
namespace BitLib.Lookup
open BitLib.Std

variable {α : Type} {Γ : Tys}

theorem compiles_ask {op : IOp} {k : Bool → Client (Option α)} :
    (ask op k).typed.Compiles Γ ↔ ∃ Γ', op.check Γ = some Γ' ∧ ∀ b, (k b).typed.Compiles Γ' := by
  constructor
  · rintro ⟨Γ', h, h'⟩
    exact ⟨Γ', h, fun b => h' (.bool b)⟩
  · rintro ⟨Γ', h, h'⟩
    refine ⟨Γ', h, fun a => ?_⟩
    cases a
    case bool b => exact h' b
    all_goals exact trivial

theorem compiles_askNum {op : IOp} {k : Int → Client (Option α)} :
    (askNum op k).typed.Compiles Γ ↔ ∃ Γ', op.check Γ = some Γ' ∧ ∀ n, (k n).typed.Compiles Γ' := by
  constructor
  · rintro ⟨Γ', h, h'⟩
    exact ⟨Γ', h, fun b => h' (.num b)⟩
  · rintro ⟨Γ', h, h'⟩
    refine ⟨Γ', h, fun a => ?_⟩
    cases a
    case num b => exact h' b
    all_goals exact trivial

theorem compiles_run {op : IOp} {k : Client (Option α)} :
    (run op k).typed.Compiles Γ ↔ ∃ Γ', op.check Γ = some Γ' ∧ k.typed.Compiles Γ' :=
  ⟨fun ⟨Γ', h, h'⟩ => ⟨Γ', h, h' .unit⟩, fun ⟨Γ', h, h'⟩ => ⟨Γ', h, fun _ => h'⟩⟩

theorem compiles_done {x : α} : (Client.done x).typed.Compiles Γ ↔ True := Iff.rfl

theorem comparable_self (i : WordIt) : i.comparable i = true := by cases i <;> rfl

theorem ex_demand {b : Bool} {Δ : Tys} {P : Tys → Prop} : (∃ Γ', demand b Δ = some Γ' ∧ P Γ') ↔ b = true ∧ P Δ := by
  unfold demand; cases b <;> simp
theorem ex_demand' {b : Bool} {Δ : Tys} : (∃ Γ', demand b Δ = some Γ') ↔ b = true := by
  unfold demand; cases b <;> simp

@[simp] theorem it_putRefT (k j : Nat) (t : RefTy) : (Γ.putRef k t).it j = Γ.it j := rfl
@[simp] theorem ref_putItT (k j : Nat) (t : ItTy) : (Γ.putIt k t).ref j = Γ.ref j := rfl
theorem ref_putT (k j : Nat) (t : RefTy) : (Γ.putRef k t).ref j = if j = k then some t else Γ.ref j := rfl
theorem it_putT (k j : Nat) (t : ItTy) : (Γ.putIt k t).it j = if j = k then some t else Γ.it j := rfl

/-- Goes through the operations of a loop. -/
syntax "ty" : tactic
macro_rules
  | `(tactic| ty) => `(tactic| (simp [compiles_ask, compiles_askNum, compiles_run, compiles_done, IOp.check, withTy, comparable_self, ex_demand, ex_demand', ref_putT, it_putT, and_assoc, apply_ite Client.typed, apply_ite (TClient.Compiles _), *] <;> try grind))

theorem find_types (v : Bool) (k : Nat) (t : ItTy) : ∀ (Γ : Tys), Γ.it 0 = some t → Γ.it 1 = some t →
    ((Std.find v (k + 1)).typed.Compiles Γ ↔ t.top = false) := by
  induction k with
  | zero => intro Γ h0 h1; unfold Std.find; simp only [Std.find]; cases v <;> ty
  | succ k ih => intro Γ h0 h1; unfold Std.find; cases v <;> ty

theorem findRef_types (k : Nat) (t : ItTy) (y : RefTy) : ∀ (Γ : Tys), Γ.ref 2 = some y → Γ.it 0 = some t → Γ.it 1 = some t →
    ((findRef (k + 1)).typed.Compiles Γ ↔ t.top = false) := by
  induction k with
  | zero => intro Γ hy h0 h1; unfold findRef; simp only [findRef]; ty
  | succ k ih => intro Γ hy h0 h1; unfold findRef; ty

theorem fillRef_types (k : Nat) (t : ItTy) (y : RefTy) : ∀ (Γ : Tys), Γ.ref 2 = some y → Γ.it 0 = some t → Γ.it 1 = some t →
    ((fillRef (k + 1)).typed.Compiles Γ ↔ t.top = false ∧ t.const = false) := by
  induction k with
  | zero => intro Γ hy h0 h1; unfold fillRef; simp only [fillRef]; ty
  | succ k ih => intro Γ hy h0 h1; unfold fillRef; ty

theorem countRef_types (k : Nat) (t : ItTy) (y : RefTy) : ∀ (Γ : Tys) (acc : Int), Γ.ref 2 = some y → Γ.it 0 = some t → Γ.it 1 = some t →
    ((countRef (k + 1) acc).typed.Compiles Γ ↔ t.top = false) := by
  induction k with
  | zero => intro Γ acc hy h0 h1; unfold countRef; simp only [countRef]; ty
  | succ k ih => intro Γ acc hy h0 h1; unfold countRef; ty

theorem count_types (v : Bool) (k : Nat) (t : ItTy) : ∀ (Γ : Tys) (acc : Int), Γ.it 0 = some t → Γ.it 1 = some t →
    ((Std.count v (k + 1) acc).typed.Compiles Γ ↔ t.top = false) := by
  induction k with
  | zero => intro Γ acc h0 h1; unfold Std.count; simp only [Std.count]; cases v <;> ty
  | succ k ih => intro Γ acc h0 h1; unfold Std.count; cases v <;> ty

theorem equal_types (k : Nat) (t : ItTy) (u : ItTy) : ∀ (Γ : Tys), Γ.it 0 = some t → Γ.it 1 = some t → Γ.it 2 = some u →
    ((Std.equal (k + 1)).typed.Compiles Γ ↔ t.top = false ∧ u.top = false) := by
  induction k with
  | zero => intro Γ h0 h1 h2; unfold Std.equal; simp only [Std.equal]; ty
  | succ k ih => intro Γ h0 h1 h2; unfold Std.equal; ty

theorem fill_types (v : Bool) (k : Nat) (t : ItTy) : ∀ (Γ : Tys), Γ.it 0 = some t → Γ.it 1 = some t →
    ((Std.fill v (k + 1)).typed.Compiles Γ ↔ t.top = false ∧ t.const = false) := by
  induction k with
  | zero => intro Γ h0 h1; unfold Std.fill; simp only [Std.fill]; ty
  | succ k ih => intro Γ h0 h1; unfold Std.fill; ty

theorem copyLoop_types (k : Nat) (t : ItTy) (u : ItTy) : ∀ (Γ : Tys), Γ.it 0 = some t → Γ.it 1 = some t → Γ.it 2 = some u →
    ((Std.copyLoop (k + 1)).typed.Compiles Γ ↔ t.top = false ∧ u.top = false ∧ u.const = false) := by
  induction k with
  | zero => intro Γ h0 h1 h2; unfold Std.copyLoop; simp only [Std.copyLoop]; ty
  | succ k ih => intro Γ h0 h1 h2; unfold Std.copyLoop; ty

theorem copyBackwardLoop_types (k : Nat) (t : ItTy) (u : ItTy) : ∀ (Γ : Tys), Γ.it 0 = some t → Γ.it 1 = some t → Γ.it 2 = some u →
    ((Std.copyBackwardLoop (k + 1)).typed.Compiles Γ ↔ t.top = false ∧ u.top = false ∧ u.const = false) := by
  induction k with
  | zero => intro Γ h0 h1 h2; unfold Std.copyBackwardLoop; simp only [Std.copyBackwardLoop]; ty
  | succ k ih => intro Γ h0 h1 h2; unfold Std.copyBackwardLoop; ty

theorem swapRanges_types (k : Nat) (t : ItTy) (u : ItTy) : ∀ (Γ : Tys), Γ.it 0 = some t → Γ.it 1 = some t → Γ.it 2 = some u →
    ((Std.swapRanges (k + 1)).typed.Compiles Γ ↔ t.top = false ∧ u.top = false ∧ t.const = false ∧ u.const = false) := by
  induction k with
  | zero => intro Γ h0 h1 h2; unfold Std.swapRanges; simp only [Std.swapRanges]; ty
  | succ k ih => intro Γ h0 h1 h2; unfold Std.swapRanges; ty

theorem reverseLoop_types (k : Nat) (t : ItTy) : ∀ (Γ : Tys), Γ.it 0 = some t → Γ.it 1 = some t →
    ((Std.reverseLoop (k + 1)).typed.Compiles Γ ↔ t.top = false ∧ t.const = false) := by
  induction k with
  | zero => intro Γ h0 h1; unfold Std.reverseLoop; simp only [Std.reverseLoop]; ty
  | succ k ih => intro Γ h0 h1; unfold Std.reverseLoop; ty

theorem transform_types (f : Bool → Bool) (k : Nat) (t : ItTy) (u : ItTy) : ∀ (Γ : Tys), Γ.it 0 = some t → Γ.it 1 = some t → Γ.it 2 = some u →
    ((Std.transform f (k + 1)).typed.Compiles Γ ↔ t.top = false ∧ u.top = false ∧ u.const = false) := by
  induction k with
  | zero => intro Γ h0 h1 h2; unfold Std.transform; simp only [Std.transform]; ty
  | succ k ih => intro Γ h0 h1 h2; unfold Std.transform; ty

theorem transform2_types (f : Bool → Bool → Bool) (k : Nat) (t : ItTy) (u : ItTy) (x : ItTy) : ∀ (Γ : Tys), Γ.it 0 = some t → Γ.it 1 = some t → Γ.it 2 = some u → Γ.it 3 = some x →
    ((Std.transform2 f (k + 1)).typed.Compiles Γ ↔ t.top = false ∧ u.top = false ∧ x.top = false ∧ x.const = false) := by
  induction k with
  | zero => intro Γ h0 h1 h2 h3; unfold Std.transform2; simp only [Std.transform2]; ty
  | succ k ih => intro Γ h0 h1 h2 h3; unfold Std.transform2; ty

end BitLib.Lookup
