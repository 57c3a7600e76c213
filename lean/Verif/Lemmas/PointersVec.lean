import Verif.Model.PointersVec
import Verif.Lemmas.PointersRotate
import Verif.Lemmas.BVecFail
/- The rules of `Lemmas/Pointers` and `Lemmas/PointersFit` for programs on the heap. -/
namespace BitLib
namespace Ptr
variable {w : Nat} {α β : Type}

/-! ### The checks change nothing else -/

def UnderV (p : PV w α) (q : V w α) : Prop := ∀ h, BadV (p h) ∨ SameV (p h) (q h)

theorem uv_pure (a : α) : UnderV (pure a : PV w α) (pure a) := fun _ => .inr rfl
theorem uv_bind {p : PV w α} {f : α → PV w β} {q : V w α} {g : α → V w β} (h1 : UnderV p q) (h2 : ∀ a, UnderV (f a) (g a)) :
    UnderV (p >>= f) (q >>= g) := by
  intro m
  show BadV ((p m >>= fun r => f r.1 r.2 : Except VPStop _)) ∨ SameV (p m >>= fun r => f r.1 r.2) (q m >>= fun r => g r.1 r.2)
  rcases h1 m with ⟨A, a, h⟩ | h
  · left
    exact ⟨A, a, by rw [h]; rfl⟩
  · unfold SameV at h
    cases hq : q m with
    | error e =>
      rw [hq] at h
      right
      simp only at h
      rw [h]
      rfl
    | ok r =>
      rw [hq] at h
      simp only at h
      rw [h]
      exact h2 r.1 r.2
theorem uv_up (q : V w α) : UnderV (upV q) q := by
  intro m
  right
  unfold upV SameV
  cases q m <;> rfl
theorem uv_on {p : P w α} {q : M w α} (h : Under p q) : UnderV (onP p) (onMem q) := by
  intro m
  unfold onP onMem
  rcases h m.mem with ⟨A, a, h⟩ | h
  · left
    exact ⟨A, a, by rw [h]⟩
  · right
    unfold Same at h
    cases hq : q m.mem with
    | error e => rw [hq] at h; simp only at h; rw [h]; rfl
    | ok r => rw [hq] at h; simp only at h; rw [h]; rfl
theorem uv_add {A : Arr} {it : BitIter w} {n : Int} {k : BitIter w → PV w α} {q : V w α} (h : UnderV (k (it.add n)) q) :
    UnderV (onP (add A it n) >>= k) q := by
  by_cases hc : A.lo ≤ (it.add n).base ∧ (it.add n).base ≤ A.hi
  · have e : (onP (add A it n) >>= k : PV w α) = k (it.add n) := by
      unfold add
      rw [form_ok hc]
      rfl
    rw [e]
    exact h
  · intro m
    left
    refine ⟨A, (it.add n).base, ?_⟩
    show (onP (add A it n) m >>= fun r => k r.1 r.2 : Except VPStop _) = _
    have e : add A it n m.mem = .error (.pointer A (it.add n).base) := by
      show (form A (it.add n).base m.mem >>= fun r => (pure (it.add n) : P w _) r.2 : Except PStop _) = _
      unfold form
      rw [if_neg hc]
      rfl
    unfold onP
    rw [e]
    rfl
theorem uv_ite {c : Prop} [Decidable c] {p p' : PV w α} {q q' : V w α} (h1 : UnderV p q) (h2 : UnderV p' q') :
    UnderV (if c then p else p') (if c then q else q') := by
  split
  · exact h1
  · exact h2

/-! ### Programs that form no forbidden word iterator -/

def FitsV (p : PV w α) (q : V w α) (Φ : α → Prop) : Prop := ∀ h, SameV (p h) (q h) ∧ ∀ r h', q h = .ok (r, h') → Φ r

theorem FitsV.same {p : PV w α} {q : V w α} {Φ : α → Prop} (h : FitsV p q Φ) (m : Heap w) : SameV (p m) (q m) := (h m).1

theorem fv_up (q : V w α) : FitsV (upV q) q fun _ => True := by
  intro m
  refine ⟨?_, fun _ _ _ => trivial⟩
  unfold upV SameV
  cases q m <;> rfl
theorem fv_upP {q : V w α} {Φ : α → Prop} (h : ∀ m r m', q m = .ok (r, m') → Φ r) : FitsV (upV q) q Φ :=
  fun m => ⟨(fv_up q m).1, h m⟩
theorem fv_pure {a : α} {Φ : α → Prop} (h : Φ a) : FitsV (pure a : PV w α) (pure a) Φ :=
  fun m => ⟨rfl, fun r m' e => by cases e; exact h⟩
theorem fv_bind {p : PV w α} {f : α → PV w β} {q : V w α} {g : α → V w β} {Φ : α → Prop} {Ψ : β → Prop} (h1 : FitsV p q Φ)
    (h2 : ∀ a, Φ a → FitsV (f a) (g a) Ψ) : FitsV (p >>= f) (q >>= g) Ψ := by
  intro m
  show SameV ((p m >>= fun r => f r.1 r.2 : Except VPStop _)) (q m >>= fun r => g r.1 r.2) ∧
    ∀ r m', (q m >>= fun r => g r.1 r.2 : Except Stop _) = .ok (r, m') → Ψ r
  have h := (h1 m).1
  have hΦ := (h1 m).2
  unfold SameV at h
  cases hq : q m with
  | error e =>
    rw [hq] at h
    simp only at h
    rw [h]
    exact ⟨rfl, fun _ _ h => nomatch h⟩
  | ok r =>
    rw [hq] at h
    simp only at h
    rw [h]
    exact h2 r.1 (hΦ r.1 r.2 hq) r.2
theorem fv_bind' {p : PV w α} {f : α → PV w β} {q : V w α} {g : α → V w β} {Ψ : β → Prop} (h1 : FitsV p q fun _ => True)
    (h2 : ∀ a, FitsV (f a) (g a) Ψ) : FitsV (p >>= f) (q >>= g) Ψ := fv_bind h1 fun a _ => h2 a
theorem fv_mono {p : PV w α} {q : V w α} {Φ Ψ : α → Prop} (h : FitsV p q Φ) (hi : ∀ a, Φ a → Ψ a) : FitsV p q Ψ :=
  fun m => ⟨(h m).1, fun r m' e => hi r ((h m).2 r m' e)⟩
theorem fv_on {p : P w α} {q : M w α} {Φ : α → Prop} (h : Fits p q Φ) : FitsV (onP p) (onMem q) Φ := by
  intro m
  have h1 := (h m.mem).1
  have h2 := (h m.mem).2
  unfold Same at h1
  unfold onP onMem
  cases hq : q m.mem with
  | error e =>
    rw [hq] at h1
    simp only at h1
    rw [h1]
    exact ⟨rfl, fun _ _ h => nomatch h⟩
  | ok r =>
    rw [hq] at h1
    simp only at h1
    rw [h1]
    refine ⟨rfl, fun a m' e => ?_⟩
    cases e
    exact h2 _ _ hq
theorem fv_add {A : Arr} {it : BitIter w} {n : Int} {k : BitIter w → PV w α} {q : V w α} {Φ : α → Prop} (hc : A.Has (it.add n))
    (h : FitsV (k (it.add n)) q Φ) : FitsV (onP (add A it n) >>= k) q Φ := by
  have e : (onP (add A it n) >>= k : PV w α) = k (it.add n) := by
    unfold add
    rw [form_ok ⟨hc.lo_base, hc.base_hi⟩]
    rfl
  rw [e]
  exact h
theorem fv_ite {c : Prop} [Decidable c] {p p' : PV w α} {q q' : V w α} {Φ : α → Prop} (h1 : c → FitsV p q Φ) (h2 : ¬c → FitsV p' q' Φ) :
    FitsV (if c then p else p') (if c then q else q') Φ := by
  split
  · exact h1 (by assumption)
  · exact h2 (by assumption)
theorem fv_distance (first last : BitIter w) :
    FitsV (upV (onMem (distance first last))) (onMem (distance first last)) fun d => d = last.addr - first.addr ∧ 0 ≤ d := by
  refine fv_upP fun m r m' h => ?_
  unfold onMem at h
  cases hq : distance first last m.mem with
  | error e => rw [hq] at h; cases h
  | ok x =>
    rw [hq] at h
    cases h
    exact ((f_distance first last) m.mem).2 _ _ hq

/-! ### Programs that always stop -/

def StuckV (p : PV w α) : Prop := ∀ m r, p m ≠ .ok r

theorem sv_left {p : PV w α} {k : α → PV w β} (h : StuckV p) : StuckV (p >>= k) := by
  intro m r e
  change (p m >>= fun r => k r.1 r.2 : Except VPStop _) = _ at e
  cases hp : p m with
  | error x => rw [hp] at e; cases e
  | ok x => exact h m x hp
theorem sv_bind {p : PV w α} {q : V w α} {Φ : α → Prop} {k : α → PV w β} (hp : FitsV p q Φ) (h : ∀ a, Φ a → StuckV (k a)) : StuckV (p >>= k) := by
  intro m r e
  change (p m >>= fun r => k r.1 r.2 : Except VPStop _) = _ at e
  have hs := (hp m).1
  unfold SameV at hs
  cases hq : q m with
  | error x =>
    rw [hq] at hs
    simp only at hs
    rw [hs] at e
    cases e
  | ok x =>
    rw [hq] at hs
    simp only at hs
    rw [hs] at e
    exact h x.1 ((hp m).2 x.1 x.2 hq) x.2 r e
theorem sv_on {p : P w α} (h : Stuck p) : StuckV (onP p) := by
  intro m r e
  unfold onP at e
  cases hp : p m.mem with
  | error x => rw [hp] at e; cases x <;> cases e
  | ok x => exact h _ _ hp
theorem sv_add {A : Arr} {it : BitIter w} {n : Int} {k : BitIter w → PV w α} (hc : A.Has (it.add n)) (h : StuckV (k (it.add n))) :
    StuckV (onP (add A it n) >>= k) := by
  have e : (onP (add A it n) >>= k : PV w α) = k (it.add n) := by
    unfold add
    rw [form_ok ⟨hc.lo_base, hc.base_hi⟩]
    rfl
  rw [e]
  exact h
theorem StuckV.bad {p : PV w α} {q : V w α} (h : StuckV p) (hu : UnderV p q) (m : Heap w) {r : α × Heap w} (hq : q m = .ok r) : BadV (p m) := by
  rcases hu m with hb | hs
  · exact hb
  · unfold SameV at hs
    rw [hq] at hs
    exact absurd hs (h m r)

/-! ### The members -/

theorem u_iIndex {A : Arr} {S : ShiftSem w} {it : BitIter w} {n : Int} : Under (iIndex A S it n) (lift (it.index S n)) := u_deref (u_up _)
theorem u_writeBools {A : Arr} {S : ShiftSem w} : ∀ l (d : BitIter w), Under (writeBools A S l d) (BV.writeBools S l d) := by
  intro l
  induction l with
  | nil => intro d; exact u_pure _
  | cons b l ih => intro d; exact u_deref (u_bind (u_up _) fun _ => u_bind (u_up _) fun _ => u_form (ih _))
theorem u_writeChars {A : Arr} {S : ShiftSem w} {it : BitIter w} : ∀ l i, Under (writeChars A S it l i) (BV.writeChars S it l i) := by
  intro l
  induction l with
  | nil => intro d; exact u_pure _
  | cons b l ih =>
    intro i
    unfold writeChars BV.writeChars
    exact u_ite (u_bind u_iIndex fun _ => u_bind (u_up _) fun _ => ih _)
      (u_ite (u_bind u_iIndex fun _ => u_bind (u_up _) fun _ => ih _) (ih _))
theorem u_debugLoop {A : Arr} {S : ShiftSem w} : ∀ fuel (it last : BitIter w) position ret,
    Under (debugLoop A S fuel it last position ret) (BV.debugLoop S fuel it last position ret) := by
  intro fuel
  induction fuel with
  | zero => intro it last position ret; exact u_up _
  | succ fuel ih =>
    intro it last position ret
    unfold debugLoop BV.debugLoop
    refine u_ite ?_ (u_pure _)
    exact u_deref (u_bind (u_up _) fun _ => u_bind (u_up _) fun _ => u_ite (u_form (ih _ _ _ _)) (u_up _))

variable {S : ShiftSem w} {Q : Policy} {v : BV}

theorem uv_index {n : Int} : UnderV (vIndex S v n) (onMem (lift (v.begin.index S n))) := uv_on u_iIndex
theorem uv_at {pos : Nat} : UnderV (vAt S v pos) (v.at_ S pos) := uv_ite uv_index (uv_up _)
theorem uv_ofBits {A : Arr} {first last : BitIter w} : UnderV (vOfBits A S Q first last) (BV.ofBits S Q first last) :=
  uv_bind (uv_up _) fun _ => uv_bind (uv_up _) fun _ => uv_bind (uv_up _) fun _ => uv_bind (uv_on u_copy) fun _ => uv_pure _
theorem uv_pushBack {b : Bool} : UnderV (vPushBack S Q v b) (v.pushBack S Q b) :=
  uv_bind (uv_up _) fun _ => uv_bind uv_index fun _ => uv_bind (uv_up _) fun _ => uv_pure _
theorem uv_foldlM {f : α → β → PV w α} {g : α → β → V w α} (h : ∀ a b, UnderV (f a b) (g a b)) :
    ∀ (l : List β) a, UnderV (l.foldlM f a) (l.foldlM g a) := by
  intro l
  induction l with
  | nil => intro a; exact uv_pure _
  | cons b l ih => intro a; rw [List.foldlM_cons, List.foldlM_cons]; exact uv_bind (h a b) fun a => ih a
theorem uv_ofBoolList {l : List Bool} : UnderV (vOfBoolList S Q l) (BV.ofBoolList S Q l) := uv_foldlM (fun _ _ => uv_pushBack) _ _
theorem uv_ofBoolRange {l : List Bool} : UnderV (vOfBoolRange S Q l) (BV.ofBoolRange S Q l) :=
  uv_bind (uv_up _) fun _ => uv_bind (uv_on (u_writeBools _ _)) fun _ => uv_pure _
theorem uv_ofString {l : List Char} : UnderV (vOfString S Q l) (BV.ofString S Q l) :=
  uv_bind (uv_up _) fun _ => uv_bind (uv_on (u_writeChars _ _)) fun _ => uv_pure _
theorem uv_insert {pos : BitIter w} {b : Bool} : UnderV (vInsert S Q v pos b) (v.insert S Q pos b) :=
  uv_bind (uv_up _) fun _ => uv_bind (uv_up _) fun _ => uv_add <| uv_add <| uv_bind (uv_on u_shiftRight) fun _ => uv_bind uv_index fun _ =>
    uv_bind (uv_up _) fun _ => uv_add <| uv_pure _
theorem uv_insertN {pos : BitIter w} {n : Nat} {b : Bool} : UnderV (vInsertN S Q v pos n b) (v.insertN S Q pos n b) :=
  uv_bind (uv_up _) fun _ => uv_ite (uv_add <| uv_pure _) <| uv_bind (uv_up _) fun _ => uv_add <| uv_add <| uv_bind (uv_on u_shiftRight) fun _ =>
    uv_add <| uv_add <| uv_add <| uv_bind (uv_on u_fill) fun _ => uv_add <| uv_pure _
theorem uv_insertRange {A : Arr} {pos first last : BitIter w} : UnderV (vInsertRange A S Q v pos first last) (v.insertRange S Q pos first last) :=
  uv_bind (uv_up _) fun _ => uv_bind (uv_up _) fun _ => uv_ite (uv_add <| uv_pure _) <| uv_bind (uv_up _) fun _ => uv_add <| uv_add <|
    uv_bind (uv_on u_shiftRight) fun _ => uv_add <| uv_bind (uv_on u_copy) fun _ => uv_add <| uv_pure _
theorem uv_erase {pos : BitIter w} : UnderV (vErase S v pos) (v.erase S pos) :=
  uv_add <| uv_bind (uv_on u_shiftLeft) fun _ => uv_bind (uv_up _) fun _ => uv_pure _
theorem uv_eraseRange {first last : BitIter w} : UnderV (vEraseRange S Q v first last) (v.eraseRange S Q first last) :=
  uv_bind (uv_up _) fun _ => uv_bind (uv_up _) fun _ => uv_ite (uv_pure _) <| uv_add <| uv_bind (uv_on u_shiftLeft) fun _ =>
    uv_bind (uv_up _) fun _ => uv_add <| uv_pure _
theorem uv_resizeVal {n : Nat} {b : Bool} : UnderV (vResizeVal S Q v n b) (v.resizeVal S Q n b) :=
  uv_bind (uv_up _) fun _ => uv_ite (uv_add <| uv_add <| uv_bind (uv_on u_fill) fun _ => uv_pure _) (uv_pure _)
theorem uv_debugString : UnderV (vDebugString S v) (v.debugString S) := uv_add <| uv_on (u_debugLoop _ _ _ _ _)

/-! ### Positions of a vector -/

theorem beginAt (hw : 0 < w) {vec : Vec} {length : Nat} {d : Int} (h0 : 0 ≤ d) (h1 : d ≤ (vec.size * w : Nat)) :
    vec.arr.Has ((⟨vec, length⟩ : BV).begin.add d : BitIter w) := by
  have e := BitIter.add_addr hw ((⟨vec, length⟩ : BV).begin : BitIter w) d
  have e0 : ((⟨vec, length⟩ : BV).begin : BitIter w).addr = vec.ptr * w := by
    show vec.ptr * (w : Int) + (0 : Nat) = _
    omega
  refine ⟨BitIter.add_valid hw _ _, ?_, ?_⟩
  · show vec.ptr * (w : Int) ≤ BitIter.addr _
    omega
  · show BitIter.addr _ ≤ (vec.ptr + vec.size) * (w : Int)
    rw [Int.add_mul]
    push_cast at h1
    omega
theorem beginAddr (hw : 0 < w) {vec : Vec} {length : Nat} {d : Int} :
    ((⟨vec, length⟩ : BV).begin.add d : BitIter w).addr = vec.ptr * w + d := by
  rw [BitIter.add_addr hw]
  show vec.ptr * (w : Int) + (0 : Nat) + d = _
  omega

theorem pos_has {pos : BitIter w} {d : Nat} (hp : IsPos v pos d) (hd : d ≤ v.vec.size * w) : v.vec.arr.Has pos := by
  obtain ⟨h1, h2⟩ := hp
  refine ⟨h1, ?_, ?_⟩
  · show v.vec.ptr * (w : Int) ≤ BitIter.addr _
    omega
  · show BitIter.addr _ ≤ (v.vec.ptr + v.vec.size) * (w : Int)
    rw [Int.add_mul]
    have : (d : Int) ≤ (v.vec.size * w : Nat) := by exact_mod_cast hd
    push_cast at this
    omega

theorem distance_pos {pos : BitIter w} {d : Nat} (hp : IsPos v pos d) :
    FitsV (upV (onMem (distance v.begin pos))) (onMem (distance v.begin pos)) fun r => r = d := by
  refine fv_mono (fv_distance _ _) fun r h => ?_
  have : (v.begin : BitIter w).addr = v.vec.ptr * w := by
    show v.vec.ptr * (w : Int) + (0 : Nat) = _
    omega
  rw [hp.2, this] at h
  omega

theorem lt_words {n : Int} {it : BitIter w} {A : Arr} (hh : A.Has (it.add n)) (h : (it.add n).addr < A.hi * w) :
    A.lo ≤ (it.add n).base ∧ (it.add n).base < A.hi := ⟨hh.lo_base, Arr.base_lt h⟩

theorem f_iIndex {A : Arr} {it : BitIter w} {n : Int} (h : A.lo ≤ (it.add n).base ∧ (it.add n).base < A.hi) :
    Fits (iIndex A S it n) (lift (it.index S n)) fun _ => True := f_deref h (f_up _)
theorem s_iIndex {A : Arr} {it : BitIter w} {n : Int} (h : ¬ (A.lo ≤ (it.add n).base ∧ (it.add n).base < A.hi)) : Stuck (iIndex A S it n) :=
  s_deref (.inl h)

theorem word_lt (hw : 0 < w) {vec : Vec} {length : Nat} {d : Int} (h0 : 0 ≤ d) (h1 : d < (vec.size * w : Nat)) :
    vec.arr.lo ≤ ((⟨vec, length⟩ : BV).begin.add d : BitIter w).base ∧ ((⟨vec, length⟩ : BV).begin.add d : BitIter w).base < vec.arr.hi := by
  refine lt_words (beginAt hw h0 (by omega)) ?_
  rw [beginAddr hw]
  show _ < (vec.ptr + vec.size) * (w : Int)
  rw [Int.add_mul]
  push_cast at h1
  omega

theorem fv_index (hw : 0 < w) {vec : Vec} {length : Nat} {d : Int} (h0 : 0 ≤ d) (h1 : d < (vec.size * w : Nat)) :
    FitsV (vIndex S ⟨vec, length⟩ d) (onMem (lift ((⟨vec, length⟩ : BV).begin.index S d))) fun _ => True :=
  fv_on (f_iIndex (word_lt hw h0 h1))

theorem sv_index (hw : 0 < w) {d : Int} (h1 : d < 0 ∨ (v.vec.size * w : Nat) ≤ d) : StuckV (vIndex S v d : PV w _) := by
  refine sv_on (s_iIndex fun h => ?_)
  have e : (v.begin.add d : BitIter w).addr = v.vec.ptr * w + d := beginAddr hw
  have hv := BitIter.add_valid hw (v.begin : BitIter w) d
  have ha := Arr.addr_eq (v.begin.add d : BitIter w)
  obtain ⟨h2, h3⟩ := h
  have h2' := Arr.mul_le (w := w) h2
  have h3' : ((v.begin.add d : BitIter w).base + 1) * w ≤ (v.vec.ptr + v.vec.size) * w := Arr.mul_le (w := w) h3
  change v.vec.ptr * (w : Int) ≤ _ at h2'
  rw [Int.add_mul, Int.add_mul] at h3'
  push_cast at h1
  have hv' : (v.begin.add d : BitIter w).pos < w := hv
  omega

theorem fv_room (hw : 0 < w) (hf : v.length ≤ v.vec.size * w) :
    FitsV (upV (v.room Q : V w Vec)) (v.room Q) fun vec => v.length + 1 ≤ vec.size * w := by
  refine fv_upP fun m r m' h => ?_
  unfold BV.room at h
  split_ifs at h with hc
  · have hs : r.size = v.vec.size + 1 := by
      unfold Vec.pushBack Vec.ensure at h
      split_ifs at h
      · cases h; rfl
      · cases h; rfl
    rw [hs, Nat.add_mul]
    omega
  · cases h
    omega

theorem fv_growFor {n : Nat} (hf : FloatOk w v.vec.size v.length n) :
    FitsV (upV (BV.growFor Q v n : V w Vec)) (BV.growFor Q v n) fun vec => v.length + n ≤ vec.size * w := by
  refine fv_upP fun m r m' h => ?_
  unfold BV.growFor at h
  unfold FloatOk at hf
  split_ifs at h with hc
  · rw [if_pos hc] at hf
    have e' : wpV (onMem (lift (floatToU32 (f32 (f32 (v.length + n) - f32 (v.vec.size * w))))) >>= fun x =>
        v.vec.resize Q (v.vec.size + wordCount w x)) m fun a _ => a = r := ⟨r, m', h, rfl⟩
    rw [wpV_bind] at e'
    obtain ⟨x, h2, ex, e2⟩ := e'
    unfold floatToU32 at ex
    rw [if_pos hf.1] at ex
    have hxx : x = f32 (f32 (v.length + n) - f32 (v.vec.size * w)) := by cases ex; rfl
    subst hxx
    obtain ⟨a, h3, e3, rfl⟩ := e2
    rw [resize_size e3]
    exact hf.2
  · rw [if_neg hc] at hf
    cases h
    exact hf

theorem fv_resize {n : Nat} {vec : Vec} : FitsV (upV (vec.resize Q n : V w Vec)) (vec.resize Q n) fun r => r.size = n :=
  fv_upP fun _ _ _ h => resize_size h

theorem fv_fresh {n : Nat} {f : Nat → Option (BitVec w)} : FitsV (upV (Vec.fresh Q n f)) (Vec.fresh Q n f) fun r => r.size = n := by
  refine fv_upP fun m r m' h => ?_
  unfold Vec.fresh at h
  cases h
  rfl

/-- The one place where `insert` may leave the array is its call of `shift_right`. -/
theorem right_iff (hw : 0 < w) {vec : Vec} {d length n : Nat} (hn : 0 < n) :
    RightAtStart vec.arr ((⟨vec, length + n⟩ : BV).begin.add (d : Int) : BitIter w) ((⟨vec, length + n⟩ : BV).begin.add ((length + n : Nat) : Int)) n ↔
      InsertAtStart w d length n := by
  unfold RightAtStart InsertAtStart
  have hw' : (0 : Int) < w := by omega
  have e1 : ((⟨vec, length + n⟩ : BV).begin.add (d : Int) : BitIter w).base = vec.ptr + ((d / w : Nat) : Int) := by
    rw [BitIter.add_eq hw]
    show vec.ptr + (((0 : Nat) : Int) + (d : Int)) / (w : Int) = _
    push_cast
    rw [Int.zero_add]
  have e2 : ((⟨vec, length + n⟩ : BV).begin.add (d : Int) : BitIter w).pos = d % w := by
    rw [BitIter.add_eq hw]
    show ((((0 : Nat) : Int) + (d : Int)) % (w : Int)).toNat = _
    rw [show ((0 : Nat) : Int) + (d : Int) = (d : Int) by omega]
    omega
  have e3 : ((⟨vec, length + n⟩ : BV).begin.add ((length + n : Nat) : Int) : BitIter w).base = vec.ptr + (((length + n) / w : Nat) : Int) := by
    rw [BitIter.add_eq hw]
    show vec.ptr + (((0 : Nat) : Int) + ((length + n : Nat) : Int)) / (w : Int) = _
    rw [show ((0 : Nat) : Int) + ((length + n : Nat) : Int) = ((length + n : Nat) : Int) by omega]
    push_cast
    rfl
  rw [e1, e2, e3, beginAddr hw, Int.add_mul]
  have e4 : vec.arr.lo = vec.ptr := rfl
  have e5 : (d / w = 0) ↔ d < w := Nat.div_eq_zero_iff_lt hw
  have e6 : ((n : Int) % (w : Int)) = ((n % w : Nat) : Int) := by push_cast; rfl
  have e7 : (((length + n) / w : Nat) : Int) * (w : Int) = (((length + n) / w * w : Nat) : Int) := by push_cast; rfl
  rw [e4, e6, e7]
  by_cases hd : d < w
  · have h0 := e5.2 hd
    rw [h0, Nat.mod_eq_of_lt hd]
    generalize (length + n) / w * w = x
    generalize n % w = y
    omega
  · have h0 : d / w ≠ 0 := fun h => hd (e5.1 h)
    constructor
    · rintro ⟨_, h, _⟩
      exact absurd h (by omega)
    · rintro ⟨h, _⟩
      exact absurd h hd

end Ptr
end BitLib
