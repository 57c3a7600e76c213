import Verif.Model.Billed
import Verif.Lemmas.Cost4
import Verif.Lemmas.Throw
/- The bill does not change what the members do, and rules for bills. -/
namespace BitLib
variable {w : Nat} {α β : Type}

/-- Without the bill, `p` is `q`. -/
def Erases (p : K w α) (q : V w α) : Prop := ∀ h b, (p (h, b)).map (fun r => (r.1, r.2.1)) = q h

namespace Erases

theorem pure (a : α) : Erases (w := w) (Pure.pure a) (Pure.pure a) := fun _ _ => rfl

theorem bind {p : K w α} {q : V w α} {f : α → K w β} {g : α → V w β} (h1 : Erases p q) (h2 : ∀ a, Erases (f a) (g a)) : Erases (p >>= f) (q >>= g) := by
  intro h b
  show Except.map _ (Except.bind (p (h, b)) fun r => f r.1 r.2) = Except.bind (q h) fun r => g r.1 r.2
  rw [← h1 h b]
  rcases p (h, b) with e | ⟨a, h', b'⟩
  · rfl
  · exact h2 a h' b'

theorem map {p : K w α} {q : V w α} (g : α → β) (h1 : Erases p q) : Erases (g <$> p) (g <$> q) := by
  intro h b
  show Except.map _ (Except.bind (p (h, b)) fun r => Except.ok (g r.1, r.2)) = Except.bind (q h) fun r => Except.ok (g r.1, r.2)
  rw [← h1 h b]
  rcases p (h, b) with e | ⟨a, h', b'⟩ <;> rfl

theorem code {c : Code w α} {p : M w α} (h : c.run = p) : Erases (Billed.code c) (onMem p) := by
  intro h' b
  unfold Billed.code onMem
  rw [h]
  dsimp only
  rcases p h'.mem with e | ⟨a, m⟩ <;> rfl

theorem step (acc req : Nat) (p : V w α) : Erases (Billed.step acc req p) p := by
  intro h b
  unfold Billed.step
  dsimp only
  rcases p h with e | ⟨a, m⟩ <;> rfl

theorem ub (e : UB) : Erases (Billed.ubK e : K w α) (ubV e) := fun _ _ => rfl

theorem ite {c : Prop} [Decidable c] {p p' : K w α} {q q' : V w α} (h1 : c → Erases p q) (h2 : ¬ c → Erases p' q') :
    Erases (if c then p else p') (if c then q else q') := by
  split
  · exact h1 ‹_›
  · exact h2 ‹_›

end Erases

namespace Billed

theorem r_refAssignVal (r : BitRef w) (v : BitVal) : (Gen.refAssignVal r v : Code w Unit).run = r.assignVal v := by
  unfold Gen.refAssignVal BitRef.assignVal
  split
  · exact Gen.r_refUpd (u := .set)
  · exact Gen.r_refUpd (u := .reset)

theorem r_refToBool (r : BitRef w) : (Gen.refToBool r : Code w Bool).run = r.toBool := rfl

theorem e_ensure (P : Policy) (v : Vec) (n : Nat) : Erases (w := w) (ensure P v n) (v.ensure P n) :=
  .ite (fun _ => .pure _) fun _ => .step _ _ _

theorem e_vecResize (P : Policy) (v : Vec) (n : Nat) : Erases (w := w) (vecResize P v n) (v.resize P n) := by
  by_cases h : n ≤ v.size
  · unfold vecResize
    rw [if_pos h]
    exact .step _ _ _
  · unfold vecResize Vec.resize
    rw [if_neg h, if_neg h]
    exact .bind (e_ensure P v n) fun v => .step _ _ _

theorem e_vecPushBack (P : Policy) (v : Vec) (x : BitVec w) : Erases (vecPushBack P v x) (v.pushBack P x) :=
  .bind (e_ensure P v _) fun _ => .step _ _ _

theorem e_vecReserve (P : Policy) (v : Vec) (n : Nat) : Erases (w := w) (vecReserve P v n) (v.reserve P n) :=
  .ite (fun _ => .pure _) fun _ => .step _ _ _

theorem e_vecShrinkToFit (P : Policy) (v : Vec) : Erases (w := w) (vecShrinkToFit P v) (v.shrinkToFit P) :=
  .ite (fun _ => .step _ _ _) fun _ => .pure _

theorem e_vecCopyAssign (P : Policy) (v o : Vec) : Erases (w := w) (vecCopyAssign P v o) (Vec.copyAssign P v o) := by
  by_cases h : o.size ≤ v.cap
  · unfold vecCopyAssign
    rw [if_pos h]
    exact .step _ _ _
  · unfold vecCopyAssign Vec.copyAssign
    rw [if_neg h, if_neg h]
    exact .bind (.step _ _ _) fun _ => .bind (.step _ _ _) fun _ => .pure _

theorem e_ofCountVal (P : Policy) (n : Nat) (b : Bool) : Erases (w := w) (ofCountVal P n b) (BV.ofCountVal P n b) := .bind (.step _ _ _) fun _ => .pure _
theorem e_ofCount (P : Policy) (n : Nat) : Erases (w := w) (ofCount P n) (BV.ofCount P n) := .bind (.step _ _ _) fun _ => .pure _
theorem e_ofBits (S : ShiftSem w) (P : Policy) (f l : BitIter w) : Erases (ofBits S P f l) (BV.ofBits S P f l) :=
  .bind (.code Gen.r_distance) fun _ => .bind (.step _ _ _) fun _ => .bind (.code Gen.r_distance) fun _ => .bind (.code Gen.r_copy) fun _ => .pure _
theorem e_ofWords (P : Policy) (l : List (BitVec w)) : Erases (ofWords P l) (BV.ofWords P l) := .bind (.step _ _ _) fun _ => .pure _
theorem e_room (P : Policy) (v : BV) : Erases (w := w) (room P v) (v.room P) := .ite (fun _ => e_vecPushBack P _ _) fun _ => .pure _
theorem e_dropWord (v : Vec) (n : Nat) : Erases (w := w) (dropWord v n) (BV.dropWord v n) := .ite (fun _ => .step _ _ _) fun _ => .pure _
theorem e_pushBack (S : ShiftSem w) (P : Policy) (v : BV) (b : Bool) : Erases (pushBack S P v b) (v.pushBack S P b) :=
  .bind (e_room P v) fun _ => .bind (.code (Gen.r_lift _)) fun _ => .bind (.code (r_refAssignVal _ _)) fun _ => .pure _

theorem e_foldlM {γ : Type} {f : α → γ → K w α} {g : α → γ → V w α} (h : ∀ a c, Erases (f a c) (g a c)) (l : List γ) :
    ∀ a, Erases (l.foldlM f a) (l.foldlM g a) := by
  induction l with
  | nil => exact fun a => .pure a
  | cons c l ih =>
    intro a
    rw [List.foldlM_cons, List.foldlM_cons]
    exact .bind (h a c) ih

theorem e_ofBoolList (S : ShiftSem w) (P : Policy) (l : List Bool) : Erases (ofBoolList S P l) (BV.ofBoolList S P l) :=
  e_foldlM (fun v b => e_pushBack S P v b) l _

theorem r_writeBools (S : ShiftSem w) (l : List Bool) : ∀ d, (writeBools S l d).run = BV.writeBools S l d := by
  induction l with
  | nil => exact fun d => rfl
  | cons b l ih =>
    intro d
    unfold writeBools BV.writeBools
    exact Gen.r_bind (Gen.r_lift _) fun r => Gen.r_bind (r_refAssignVal _ _) fun _ => ih _

theorem e_ofBoolRange (S : ShiftSem w) (P : Policy) (l : List Bool) : Erases (ofBoolRange S P l) (BV.ofBoolRange S P l) :=
  .bind (.step _ _ _) fun _ => .bind (.code (r_writeBools S l _)) fun _ => .pure _

theorem r_writeChars (S : ShiftSem w) (it : BitIter w) (l : List Char) : ∀ i, (writeChars S it l i).run = BV.writeChars S it l i := by
  induction l with
  | nil => exact fun i => rfl
  | cons c l ih =>
    intro i
    have h (b : Bool) : (Gen.lift (it.index S (i : Int)) >>= fun r => Gen.refAssignVal r ⟨b⟩ >>= fun _ => writeChars S it l (i + 1) : Code w Unit).run =
        (lift (it.index S (i : Int)) >>= fun r => r.assignVal ⟨b⟩ >>= fun _ => BV.writeChars S it l (i + 1)) := 
      Gen.r_bind (Gen.r_lift _) fun r => Gen.r_bind (r_refAssignVal _ _) fun _ => ih _
    unfold writeChars BV.writeChars
    split
    · exact h false
    · split
      · exact h true
      · exact ih i

theorem e_ofString (S : ShiftSem w) (P : Policy) (s : List Char) : Erases (ofString S P s) (BV.ofString S P s) :=
  .bind (.step _ _ _) fun _ => .bind (.code (r_writeChars S _ s _)) fun _ => .pure _
theorem e_copyOf (P : Policy) (o : BV) : Erases (w := w) (copyOf P o) (BV.copyOf P o) := .bind (.step _ _ _) fun _ => .pure _
theorem e_destroy (v : BV) : Erases (w := w) (destroy v) v.destroy := .step _ _ _
theorem e_copyAssign (P : Policy) (v o : BV) : Erases (w := w) (copyAssign P v o) (v.copyAssign P o) := .bind (e_vecCopyAssign P _ _) fun _ => .pure _
theorem e_moveAssign (v o : BV) : Erases (w := w) (moveAssign v o) (v.moveAssign o) := .step _ _ _
theorem e_get (S : ShiftSem w) (v : BV) (n : Nat) : Erases (get S v n) (v.get S n) := .bind (.code (Gen.r_lift _)) fun _ => .code (r_refToBool _)
theorem e_set (S : ShiftSem w) (v : BV) (n : Nat) (b : Bool) : Erases (set S v n b) (v.set S n b) :=
  .bind (.code (Gen.r_lift _)) fun _ => .bind (.code (r_refAssignVal _ _)) fun _ => .pure _
theorem e_reserve (P : Policy) (v : BV) (n : Nat) : Erases (w := w) (reserve P v n) (v.reserve P n) := .bind (e_vecReserve P _ _) fun _ => .pure _
theorem e_shrinkToFit (P : Policy) (v : BV) : Erases (w := w) (shrinkToFit P v) (v.shrinkToFit P) := .bind (e_vecShrinkToFit P _) fun _ => .pure _
theorem e_clear (v : BV) : Erases (w := w) (clear v) v.clear := .bind (.step _ _ _) fun _ => .pure _
theorem e_insert (S : ShiftSem w) (P : Policy) (v : BV) (pos : BitIter w) (b : Bool) : Erases (insert S P v pos b) (v.insert S P pos b) :=
  .bind (.code Gen.r_distance) fun _ => .bind (e_room P v) fun _ => .bind (.code Gen.r_shiftRight) fun _ => .bind (.code (Gen.r_lift _)) fun _ =>
    .bind (.code (r_refAssignVal _ _)) fun _ => .pure _
theorem e_growFor (P : Policy) (v : BV) (n : Nat) : Erases (w := w) (growFor P v n) (v.growFor P n) :=
  .ite (fun _ => .bind (.code (Gen.r_lift _)) fun _ => e_vecResize P _ _) fun _ => .pure _
theorem e_insertN (S : ShiftSem w) (P : Policy) (v : BV) (pos : BitIter w) (n : Nat) (b : Bool) : Erases (insertN S P v pos n b) (v.insertN S P pos n b) :=
  .bind (.code Gen.r_distance) fun _ => .ite (fun _ => .pure _) fun _ => .bind (e_growFor P v n) fun _ => .bind (.code Gen.r_shiftRight) fun _ =>
    .bind (.code Gen.r_fill) fun _ => .pure _
theorem e_insertRange (S : ShiftSem w) (P : Policy) (v : BV) (pos f l : BitIter w) : Erases (insertRange S P v pos f l) (v.insertRange S P pos f l) :=
  .bind (.code Gen.r_distance) fun _ => .bind (.code Gen.r_distance) fun _ => .ite (fun _ => .pure _) fun _ => .bind (e_growFor P v _) fun _ =>
    .bind (.code Gen.r_shiftRight) fun _ => .bind (.code Gen.r_copy) fun _ => .pure _
theorem e_erase (S : ShiftSem w) (v : BV) (pos : BitIter w) : Erases (erase S v pos) (v.erase S pos) :=
  .bind (.code Gen.r_shiftLeft) fun _ => .bind (e_dropWord _ _) fun _ => .pure _
theorem e_eraseRange (S : ShiftSem w) (P : Policy) (v : BV) (f l : BitIter w) : Erases (eraseRange S P v f l) (v.eraseRange S P f l) :=
  .bind (.code Gen.r_distance) fun _ => .bind (.code Gen.r_distance) fun _ => .ite (fun _ => .pure _) fun _ => .bind (.code Gen.r_shiftLeft) fun _ =>
    .bind (e_vecResize P _ _) fun _ => .pure _
theorem e_popBack (v : BV) : Erases (w := w) (popBack v) v.popBack := .bind (e_dropWord _ _) fun _ => .pure _
theorem e_resize (P : Policy) (v : BV) (n : Nat) : Erases (w := w) (resize P v n) (v.resize P n) := .bind (e_vecResize P _ _) fun _ => .pure _
theorem e_resizeVal (S : ShiftSem w) (P : Policy) (v : BV) (n : Nat) (b : Bool) : Erases (resizeVal S P v n b) (v.resizeVal S P n b) :=
  .bind (e_vecResize P _ _) fun _ => .ite (fun _ => .bind (.code Gen.r_fill) fun _ => .pure _) fun _ => .pure _

theorem e_onVec {vs : List BV} {i : Nat} {f : BV → K w BV} {g : BV → V w BV} (h : ∀ v, Erases (f v) (g v)) : Erases (onVecK vs i f) (onVec vs i g) := by
  unfold onVecK onVec
  cases vs[i]? with
  | none => exact .ub _
  | some v => exact .bind (h v) fun _ => .pure _

theorem e_onVec2 {vs : List BV} {i j : Nat} {f : BV → BV → K w BV} {g : BV → BV → V w BV} (h : ∀ v o, Erases (f v o) (g v o)) :
    Erases (onVec2K vs i j f) (onVec2 vs i j g) := by
  unfold onVec2K onVec2
  cases vs[i]? with
  | none => exact .ub _
  | some v =>
    cases vs[j]? with
    | none => exact .ub _
    | some o => exact .bind (h v o) fun _ => .pure _

theorem e_newVec {vs : List BV} {f : K w BV} {g : V w BV} (h : Erases f g) : Erases (newVecK vs f) (newVec vs g) := .bind h fun _ => .pure _

theorem e_exec (S : ShiftSem w) (P : Policy) (vs : List BV) (op : Op w) : Erases (op.execK S P vs) (op.exec S P vs) := by
  cases op with
  | newEmpty => exact e_newVec (.pure _)
  | newCount n => exact e_newVec (e_ofCount P n)
  | newCountVal n x => exact e_newVec (e_ofCountVal P n x)
  | newString s => exact e_newVec (e_ofString S P s)
  | newBoolRange l => exact e_newVec (e_ofBoolRange S P l)
  | newBoolList l => exact e_newVec (e_ofBoolList S P l)
  | newWords l => exact e_newVec (e_ofWords P l)
  | newBits j a b =>
    unfold Op.execK Op.exec
    dsimp only
    cases vs[j]? with
    | none => exact .ub _
    | some o => exact e_newVec (e_ofBits S P _ _)
  | newCopy j =>
    unfold Op.execK Op.exec
    dsimp only
    cases vs[j]? with
    | none => exact .ub _
    | some o => exact e_newVec (e_copyOf P o)
  | push i x => exact e_onVec fun v => e_pushBack S P v x
  | pop i => exact e_onVec fun v => e_popBack v
  | insert i d x => exact e_onVec fun v => .map _ (e_insert S P v _ x)
  | insertN i d n x => exact e_onVec fun v => .map _ (e_insertN S P v _ n x)
  | insertRange i d j a b => exact e_onVec2 fun v o => .map _ (e_insertRange S P v _ _ _)
  | erase i d => exact e_onVec fun v => .map _ (e_erase S v _)
  | eraseRange i a b => exact e_onVec fun v => .map _ (e_eraseRange S P v _ _)
  | clear i => exact e_onVec fun v => e_clear v
  | set i k x => exact e_onVec fun v => e_set S v k x
  | copyAssign i j => exact e_onVec2 fun v o => e_copyAssign P v o
  | moveAssign i j =>
    unfold Op.execK Op.exec
    dsimp only
    cases vs[i]? with
    | none => exact .ub _
    | some v =>
      cases vs[j]? with
      | none => exact .ub _
      | some o => exact .bind (e_moveAssign v o) fun _ => .pure _
  | reserve i n => exact e_onVec fun v => e_reserve P v n
  | shrinkToFit i => exact e_onVec fun v => e_shrinkToFit P v
  | shrink i n => exact e_onVec fun v => e_resize P v n
  | destroy i => exact e_onVec fun v => .bind (e_destroy v) fun _ => .pure _

theorem e_hist (S : ShiftSem w) (P : Policy) (vs : List BV) (ops : List (Op w)) : Erases (runHistK S P vs ops) (runHist S P vs ops) :=
  e_foldlM (fun vs op => e_exec S P vs op) ops vs

end Billed
end BitLib
