import Verif.Lemmas.PointersVec
import Verif.Lemmas.BVec2
/- The word iterators formed by the members of `bit_vector`. -/
namespace BitLib
namespace Ptr
variable {w : Nat} {S : ShiftSem w} {Q : Policy} {v : BV}

theorem fv_at (hw : 0 < w) {pos : Nat} (hf : v.length ≤ v.vec.size * w) : FitsV (vAt S v pos) (v.at_ S pos) fun _ => True :=
  fv_ite (fun hp => fv_index hw (by omega) (by omega)) fun _ => fv_up _

theorem fv_pushBack (hw : 0 < w) {b : Bool} (hf : v.length ≤ v.vec.size * w) :
    FitsV (vPushBack S Q v b) (v.pushBack S Q b) fun r => r.length ≤ r.vec.size * w :=
  fv_bind (fv_room hw hf) fun _ hs => fv_bind' (fv_index hw (by omega) (by dsimp only; omega)) fun _ => fv_bind' (fv_up _) fun _ => fv_pure hs

theorem fv_foldlM {α β : Type} {Φ : α → Prop} {f : α → β → PV w α} {g : α → β → V w α} (h : ∀ a b, Φ a → FitsV (f a b) (g a b) Φ) :
    ∀ (l : List β) a, Φ a → FitsV (l.foldlM f a) (l.foldlM g a) Φ := by
  intro l
  induction l with
  | nil => intro a ha; exact fv_pure ha
  | cons b l ih => intro a ha; rw [List.foldlM_cons, List.foldlM_cons]; exact fv_bind (h a b ha) fun a ha => ih a ha

theorem fv_ofBoolList (hw : 0 < w) {l : List Bool} : FitsV (vOfBoolList S Q l) (BV.ofBoolList S Q l) fun r => r.length ≤ r.vec.size * w :=
  fv_foldlM (fun _ _ h => fv_pushBack hw h) _ _ (Nat.zero_le _)

theorem f_writeBools {A : Arr} : ∀ (l : List Bool) (d : BitIter w), A.Has d → d.addr + l.length ≤ A.hi * w →
    Fits (writeBools A S l d) (BV.writeBools S l d) fun _ => True := by
  intro l
  induction l with
  | nil => intro d _ _; exact f_pure trivial
  | cons b l ih =>
    intro d hd hh
    rw [List.length_cons] at hh
    push_cast at hh
    have hw := hd.pos_w
    have hlo := hd.lo_le
    have ha : d.inc.addr = d.addr + 1 := by rw [BitIter.inc_eq_add hd.valid, BitIter.add_addr hw]
    have hi : A.Has d.inc := ⟨by rw [BitIter.inc_eq_add hd.valid]; exact BitIter.add_valid hw _ _, by rw [← Arr.addr_eq]; omega, by rw [← Arr.addr_eq]; omega⟩
    exact f_deref ⟨hd.lo_base, Arr.base_lt (by omega)⟩ <| f_bind' (f_up _) fun _ => f_bind' (f_up _) fun _ =>
      f_form ⟨hi.lo_base, hi.base_hi⟩ <| ih _ hi (by omega)

theorem words_ge (hw : 0 < w) {n : Nat} : n ≤ n * w := Nat.le_mul_of_pos_right n hw

theorem begin_has {vec : Vec} {length : Nat} (hw : 0 < w) : vec.arr.Has ((⟨vec, length⟩ : BV).begin : BitIter w) := by
  refine ⟨hw, ?_, ?_⟩
  · show vec.ptr * (w : Int) ≤ vec.ptr * (w : Int) + ((0 : Nat) : Int)
    omega
  · show vec.ptr * (w : Int) + ((0 : Nat) : Int) ≤ (vec.ptr + vec.size) * (w : Int)
    rw [Int.add_mul]
    have : (0 : Int) ≤ (vec.size * w : Nat) := by omega
    push_cast at this
    omega
theorem begin_addr {vec : Vec} {length : Nat} : ((⟨vec, length⟩ : BV).begin : BitIter w).addr = vec.ptr * w := by
  show vec.ptr * (w : Int) + ((0 : Nat) : Int) = _
  omega
theorem hi_eq {vec : Vec} : vec.arr.hi * (w : Int) = vec.ptr * w + (vec.size * w : Nat) := by
  show (vec.ptr + vec.size) * (w : Int) = _
  rw [Int.add_mul]
  push_cast
  rfl

theorem fv_ofBoolRange (hw : 0 < w) {l : List Bool} : FitsV (vOfBoolRange S Q l) (BV.ofBoolRange S Q l) fun _ => True := by
  refine fv_bind fv_fresh fun vec hs => fv_bind' (fv_on (f_writeBools _ _ (begin_has hw) ?_)) fun _ => fv_pure trivial
  rw [begin_addr, hi_eq, hs]
  have := words_ge hw (n := l.length)
  omega

theorem f_writeChars (hw : 0 < w) {vec : Vec} {length : Nat} : ∀ (l : List Char) (i : Nat), i + (l.count '0' + l.count '1') ≤ vec.size * w →
    Fits (writeChars vec.arr S (⟨vec, length⟩ : BV).begin l i) (BV.writeChars S (⟨vec, length⟩ : BV).begin l i) fun _ => True := by
  intro l
  induction l with
  | nil => intro i _; exact f_pure trivial
  | cons c l ih =>
    intro i hi
    rw [List.count_cons, List.count_cons] at hi
    unfold writeChars BV.writeChars
    refine f_ite (fun hc => ?_) fun hc => f_ite (fun hc' => ?_) fun hc' => ?_
    · subst hc
      simp at hi
      exact f_bind' (f_iIndex (word_lt hw (by omega) (by omega))) fun _ => f_bind' (f_up _) fun _ => ih _ (by omega)
    · subst hc'
      simp at hi
      exact f_bind' (f_iIndex (word_lt hw (by omega) (by omega))) fun _ => f_bind' (f_up _) fun _ => ih _ (by omega)
    · exact ih _ (by omega)

theorem fv_ofString (hw : 0 < w) {l : List Char} : FitsV (vOfString S Q l) (BV.ofString S Q l) fun _ => True := by
  refine fv_bind fv_fresh fun vec hs => fv_bind' (fv_on (f_writeChars hw _ _ ?_)) fun _ => fv_pure trivial
  rw [hs, Nat.zero_add]
  exact words_ge hw

theorem toSize_eq {d : Int} (h0 : 0 ≤ d) : ((toSize d : Nat) : Int) = d := by
  unfold toSize
  rw [if_pos h0]
  omega

theorem fv_ofBits {A : Arr} {first last : BitIter w} (h : A.Has first) (hl : A.Has last) :
    FitsV (vOfBits A S Q first last) (BV.ofBits S Q first last) fun _ => True := by
  have hw := h.pos_w
  refine fv_bind (fv_distance _ _) fun d ⟨e, h0⟩ => fv_bind fv_fresh fun vec hs => fv_bind' (fv_up _) fun _ =>
    fv_bind' (fv_on (f_copy h hl (begin_has hw) ?_)) fun _ => fv_pure trivial
  rw [begin_addr, hi_eq, hs]
  have := words_ge hw (n := toSize d)
  have := toSize_eq h0
  omega

/-! ### `insert` -/

theorem sub_in (hw : 0 < w) {vec : Vec} {length n : Nat} (hs : length + n ≤ vec.size * w) :
    vec.arr.lo ≤ (((⟨vec, length + n⟩ : BV).begin.add ((length + n : Nat) : Int) : BitIter w).sub (n : Int)).base ∧
      (((⟨vec, length + n⟩ : BV).begin.add ((length + n : Nat) : Int) : BitIter w).sub (n : Int)).base ≤ vec.arr.hi := by
  have h : vec.arr.Has ((⟨vec, length + n⟩ : BV).begin.add ((length + n : Nat) : Int) : BitIter w) := beginAt hw (by omega) (by omega)
  have := h.sub (n := n) (by rw [beginAddr hw]; show vec.ptr * (w : Int) ≤ _; omega) (by rw [beginAddr hw, hi_eq]; omega)
  exact ⟨this.lo_base, this.base_hi⟩

theorem f_shift (hw : 0 < w) {vec : Vec} {d length n : Nat} (hn : 0 < n) (hd : d ≤ length) (hs : length + n ≤ vec.size * w)
    (hg : ¬ InsertAtStart w d length n) :
    Fits (shiftRight vec.arr S ((⟨vec, length + n⟩ : BV).begin.add (d : Int)) ((⟨vec, length + n⟩ : BV).begin.add ((length + n : Nat) : Int)) (n : Int))
      (BitLib.shiftRight S ((⟨vec, length + n⟩ : BV).begin.add (d : Int)) ((⟨vec, length + n⟩ : BV).begin.add ((length + n : Nat) : Int)) (n : Int))
      fun _ => True :=
  f_shiftRight (beginAt hw (by omega) (by omega)) (beginAt hw (by omega) (by omega)) (sub_in hw hs) fun h => hg ((right_iff hw hn).1 h)

theorem s_shift (hw : 0 < w) {vec : Vec} {d length n : Nat} (hn : 0 < n) (hd : d ≤ length) (hs : length + n ≤ vec.size * w)
    (hg : InsertAtStart w d length n) :
    Stuck (shiftRight vec.arr S ((⟨vec, length + n⟩ : BV).begin.add (d : Int)) ((⟨vec, length + n⟩ : BV).begin.add ((length + n : Nat) : Int)) (n : Int)) :=
  s_shiftRight (beginAt hw (by omega) (by omega)) (beginAt hw (by omega) (by omega)) (.inr ((right_iff hw hn).2 hg))

theorem fv_insert (hw : 0 < w) {pos : BitIter w} {d : Nat} {b : Bool} (hf : v.length ≤ v.vec.size * w) (hp : IsPos v pos d) (hd : d ≤ v.length)
    (hg : ¬ InsertAtStart w d v.length 1) : FitsV (vInsert S Q v pos b) (v.insert S Q pos b) fun _ => True := by
  refine fv_bind (distance_pos hp) fun _ e => fv_bind (fv_room hw hf) fun vec hs => ?_
  subst e
  exact fv_add (beginAt hw (by omega) (by omega)) <| fv_add (beginAt hw (by omega) (by dsimp only; omega)) <|
    fv_bind' (fv_on (f_shift hw (by omega) hd hs hg)) fun _ => fv_bind' (fv_index hw (by omega) (by omega)) fun _ =>
    fv_bind' (fv_up _) fun _ => fv_add (beginAt hw (by omega) (by omega)) <| fv_pure trivial

theorem sv_insert (hw : 0 < w) {pos : BitIter w} {d : Nat} {b : Bool} (hf : v.length ≤ v.vec.size * w) (hp : IsPos v pos d) (hd : d ≤ v.length)
    (hg : InsertAtStart w d v.length 1) : StuckV (vInsert S Q v pos b) := by
  refine sv_bind (distance_pos hp) fun _ e => sv_bind (fv_room hw hf) fun vec hs => ?_
  subst e
  exact sv_add (beginAt hw (by omega) (by omega)) <| sv_add (beginAt hw (by omega) (by dsimp only; omega)) <|
    sv_left (sv_on (s_shift hw (by omega) hd hs hg))

theorem fv_insertN (hw : 0 < w) {pos : BitIter w} {d n : Nat} {b : Bool} (hf : v.length ≤ v.vec.size * w) (hfl : FloatOk w v.vec.size v.length n)
    (hp : IsPos v pos d) (hd : d ≤ v.length) (hg : ¬ InsertAtStart w d v.length n) :
    FitsV (vInsertN S Q v pos n b) (v.insertN S Q pos n b) fun _ => True := by
  refine fv_bind (distance_pos hp) fun _ e => fv_ite (fun _ => ?_) fun hn => fv_bind (fv_growFor hfl) fun vec hs => ?_
  · subst e
    exact fv_add (beginAt hw (by omega) (by omega)) <| fv_pure trivial
  · subst e
    have hd' : vec.arr.Has ((⟨vec, v.length + n⟩ : BV).begin.add (d : Int) : BitIter w) := beginAt hw (by omega) (by omega)
    have he : vec.arr.Has (((⟨vec, v.length + n⟩ : BV).begin.add (d : Int) : BitIter w).add (n : Int)) := by
      have := hd'.lo_le
      exact hd'.add (by omega) (by rw [beginAddr hw, hi_eq]; omega)
    exact fv_add hd' <| fv_add (beginAt hw (by omega) (by dsimp only; omega)) <|
      fv_bind' (fv_on (f_shift hw (by omega) hd hs hg)) fun _ => fv_add hd' <| fv_add hd' <| fv_add he <|
      fv_bind' (fv_on (f_fill hd' he)) fun _ => fv_add hd' <| fv_pure trivial

theorem sv_insertN (hw : 0 < w) {pos : BitIter w} {d n : Nat} {b : Bool} (hfl : FloatOk w v.vec.size v.length n)
    (hp : IsPos v pos d) (hd : d ≤ v.length) (hg : InsertAtStart w d v.length n) : StuckV (vInsertN S Q v pos n b) := by
  have hn : 0 < n := Nat.pos_of_ne_zero fun h => hg.2.2.1 (by rw [h]; exact Nat.zero_mod w)
  refine sv_bind (distance_pos hp) fun _ e => ?_
  rw [if_neg (by omega)]
  refine sv_bind (fv_growFor hfl) fun vec hs => ?_
  subst e
  exact sv_add (beginAt hw (by omega) (by omega)) <| sv_add (beginAt hw (by omega) (by dsimp only; omega)) <|
    sv_left (sv_on (s_shift hw hn hd hs hg))

theorem fv_insertRange {A : Arr} {pos first last : BitIter w} {d n : Nat} (hf : v.length ≤ v.vec.size * w) (hfl : FloatOk w v.vec.size v.length n)
    (hp : IsPos v pos d) (hd : d ≤ v.length) (h : A.Has first) (hl : A.Has last) (hn : last.addr = first.addr + n)
    (hg : ¬ InsertAtStart w d v.length n) : FitsV (vInsertRange A S Q v pos first last) (v.insertRange S Q pos first last) fun _ => True := by
  have hw := h.pos_w
  refine fv_bind (distance_pos hp) fun _ e => fv_bind (fv_distance _ _) fun c ⟨hc, h0⟩ => ?_
  have ht : toSize c = n := by
    have := toSize_eq h0
    omega
  dsimp only
  rw [ht]
  refine fv_ite (fun _ => ?_) fun hn0 => fv_bind (fv_growFor hfl) fun vec hs => ?_
  · subst e
    exact fv_add (beginAt hw (by omega) (by omega)) <| fv_pure trivial
  · subst e
    have hd' : vec.arr.Has ((⟨vec, v.length + n⟩ : BV).begin.add (d : Int) : BitIter w) := beginAt hw (by omega) (by omega)
    exact fv_add hd' <| fv_add (beginAt hw (by omega) (by omega)) <|
      fv_bind' (fv_on (f_shift hw (by omega) hd hs hg)) fun _ => fv_add hd' <|
      fv_bind' (fv_on (f_copy h hl hd' (by rw [beginAddr hw, hi_eq]; omega))) fun _ => fv_add hd' <| fv_pure trivial

theorem sv_insertRange (hw : 0 < w) {A : Arr} {pos first last : BitIter w} {d n : Nat} (hfl : FloatOk w v.vec.size v.length n)
    (hp : IsPos v pos d) (hd : d ≤ v.length) (hn : last.addr = first.addr + n)
    (hg : InsertAtStart w d v.length n) : StuckV (vInsertRange A S Q v pos first last) := by
  have hn0 : 0 < n := Nat.pos_of_ne_zero fun h => hg.2.2.1 (by rw [h]; exact Nat.zero_mod w)
  refine sv_bind (distance_pos hp) fun _ e => sv_bind (fv_distance _ _) fun c ⟨hc, h0⟩ => ?_
  have ht : toSize c = n := by
    have := toSize_eq h0
    omega
  dsimp only
  rw [ht, if_neg (by omega)]
  refine sv_bind (fv_growFor hfl) fun vec hs => ?_
  subst e
  exact sv_add (beginAt hw (by omega) (by omega)) <| sv_add (beginAt hw (by omega) (by omega)) <|
    sv_left (sv_on (s_shift hw hn0 hd hs hg))

/-! ### `erase`, `resize`, `debug_string` -/

theorem fv_erase (hw : 0 < w) {pos : BitIter w} {d : Nat} (hf : v.length ≤ v.vec.size * w) (hp : IsPos v pos d) (hd : d < v.length) :
    FitsV (vErase S v pos) (v.erase S pos) fun _ => True := by
  have h := pos_has hp (by omega)
  have h1 : v.vec.arr.Has (pos.add 1) := by
    have := h.lo_le
    exact h.add (by omega) (by rw [hp.2, hi_eq]; omega)
  exact fv_add (beginAt hw (by omega) (by omega)) <| fv_bind' (fv_on (f_mono (f_shiftLeft h (beginAt hw (by omega) (by omega))
    ⟨h1.lo_base, h1.base_hi⟩) fun _ _ => trivial)) fun _ => fv_bind' (fv_up _) fun _ => fv_pure trivial

theorem fv_eraseRange (hw : 0 < w) {first last : BitIter w} {d e : Nat} (hf : v.length ≤ v.vec.size * w) (hp : IsPos v first d) (hq : IsPos v last e)
    (he : e ≤ v.length) (hlen : v.length < 2 ^ 32) : FitsV (vEraseRange S Q v first last) (v.eraseRange S Q first last) fun _ => True := by
  refine fv_bind (distance_pos hp) fun _ e1 => fv_bind (fv_distance _ _) fun c ⟨hc, h0⟩ => fv_ite (fun _ => fv_pure trivial) fun hne => ?_
  subst e1
  rw [hp.2, hq.2] at hc
  have h := pos_has hp (by omega)
  have h1 : v.vec.arr.Has (first.add c) := by
    have := h.lo_le
    exact h.add (by omega) (by rw [hp.2, hi_eq]; omega)
  have hl : v.vec.arr.Has (v.begin.add (v.length : Int) : BitIter w) := beginAt hw (by omega) (by omega)
  refine fv_add hl <| fv_bind' (fv_on (f_mono (f_shiftLeft h hl ⟨h1.lo_base, h1.base_hi⟩) fun _ _ => trivial)) fun _ =>
    fv_bind fv_resize fun vec hs => fv_add (beginAt hw (by omega) ?_) <| fv_pure trivial
  rw [hs]
  have ht := toSize_eq (d := (v.length : Int) - c) (by omega)
  have := wordCount_ge hw (n := toSize ((v.length : Int) - c)) (by omega)
  omega

theorem fv_resizeVal (hw : 0 < w) {n : Nat} {b : Bool} (hn : n < 2 ^ 32) : FitsV (vResizeVal S Q v n b) (v.resizeVal S Q n b) fun _ => True := by
  refine fv_bind fv_resize fun vec hs => fv_ite (fun _ => ?_) fun _ => fv_pure trivial
  have hc := wordCount_ge hw hn
  have h : vec.arr.Has ((⟨vec, n⟩ : BV).begin.add (n : Int) : BitIter w) := beginAt hw (by omega) (by rw [hs]; omega)
  exact fv_add h <| fv_add h <| fv_bind' (fv_on (f_fill h h)) fun _ => fv_pure trivial

theorem f_debugLoop {A : Arr} {last : BitIter w} (hl : A.Has last) : ∀ fuel (it : BitIter w) position ret, A.Has it → it.addr ≤ last.addr →
    Fits (debugLoop A S fuel it last position ret) (BV.debugLoop S fuel it last position ret) fun _ => True := by
  intro fuel
  induction fuel with
  | zero => intro it position ret _ _; exact f_up _
  | succ fuel ih =>
    intro it position ret h hle
    unfold debugLoop BV.debugLoop
    refine f_ite (fun hne => ?_) fun _ => f_pure trivial
    have hw := h.pos_w
    have hne' : it.addr ≠ last.addr := fun he => by
      have hb := (BitIter.beq_iff h.valid hl.valid).2 he
      unfold BitIter.beq at hb
      unfold BitIter.bne at hne
      simp only [decide_eq_true_eq] at hb hne
      omega
    have hh := hl.le_hi
    have hlo := h.lo_le
    have ha : it.inc.addr = it.addr + 1 := by rw [BitIter.inc_eq_add h.valid, BitIter.add_addr hw]
    have hi : A.Has it.inc := ⟨by rw [BitIter.inc_eq_add h.valid]; exact BitIter.add_valid hw _ _, by rw [← Arr.addr_eq]; omega, by rw [← Arr.addr_eq]; omega⟩
    exact f_deref ⟨h.lo_base, Arr.base_lt (by omega)⟩ <| f_bind' (f_up _) fun _ => f_bind' (f_up _) fun _ =>
      f_ite (fun _ => f_form ⟨hi.lo_base, hi.base_hi⟩ <| ih _ _ _ hi (by omega)) fun _ => f_up _

theorem fv_debugString (hw : 0 < w) (hf : v.length ≤ v.vec.size * w) : FitsV (vDebugString S v) (v.debugString S) fun _ => True := by
  have h : v.vec.arr.Has (v.begin.add (v.length : Int) : BitIter w) := beginAt hw (by omega) (by omega)
  refine fv_add h <| fv_on (f_debugLoop h _ _ _ _ (begin_has hw) ?_)
  show BitIter.addr (⟨v.vec, v.length⟩ : BV).begin ≤ BitIter.addr ((⟨v.vec, v.length⟩ : BV).begin.add _)
  rw [begin_addr, beginAddr hw]
  omega

end Ptr
end BitLib
