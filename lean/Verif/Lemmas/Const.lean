import Verif.SpecConst
/- Lemmas for the theorems about programs with `const` access. -/
namespace BitLib
variable {w : Nat} {α β : Type}

/-- If the computation ends, the result is as stated and the words of block `b` are as before. -/
def Keeps (own : Int → Nat) (b : Nat) (x : M w α) (Q : α → Prop) : Prop :=
  ∀ m r m', x m = .ok (r, m') → Q r ∧ ∀ a, own a = b → m' a = m a

namespace Keeps
variable {own : Int → Nat} {b : Nat} {Q : α → Prop} {R : β → Prop}

theorem ret {x : α} (h : Q x) : Keeps own b (Pure.pure x : M w α) Q := by
  intro m r m' e
  obtain ⟨rfl, rfl⟩ := Prod.mk.inj (Except.ok.inj e)
  exact ⟨h, fun _ _ => rfl⟩

theorem ub {e : UB} : Keeps own b (BitLib.ub e : M w α) Q := fun _ _ _ h => nomatch h

theorem lift {e : Except UB α} (h : ∀ x, Q x) : Keeps own b (BitLib.lift e : M w α) Q := by
  cases e with
  | error _ => exact fun _ _ _ h => nomatch h
  | ok x => exact ret (h x)

theorem seq {x : M w α} {f : α → M w β} (hx : Keeps own b x Q) (hf : ∀ r, Q r → Keeps own b (f r) R) : Keeps own b (x >>= f) R := by
  intro m r m' e
  change (x m >>= fun p => f p.1 p.2) = _ at e
  cases h : x m with
  | error _ => rw [h] at e; exact nomatch e
  | ok p =>
    rw [h] at e
    obtain ⟨h1, h2⟩ := hx m p.1 p.2 h
    obtain ⟨h3, h4⟩ := hf p.1 h1 p.2 r m' e
    exact ⟨h3, fun a ha => (h4 a ha).trans (h2 a ha)⟩

theorem mono {Q' : α → Prop} {x : M w α} (hx : Keeps own b x Q) (h : ∀ r, Q r → Q' r) : Keeps own b x Q' :=
  fun m r m' e => ⟨h r (hx m r m' e).1, (hx m r m' e).2⟩

theorem load {a : Int} : Keeps own b (BitLib.load a : M w _) fun _ => True := by
  intro m r m' e
  unfold BitLib.load at e
  split at e
  · obtain ⟨rfl, rfl⟩ := Prod.mk.inj (Except.ok.inj e)
    exact ⟨trivial, fun _ _ => rfl⟩
  · exact nomatch e

theorem store {a : Int} {x : BitVec w} (h : own a ≠ b) : Keeps own b (BitLib.store a x : M w _) fun _ => True := by
  intro m r m' e
  unfold BitLib.store at e
  split at e
  · obtain ⟨rfl, rfl⟩ := Prod.mk.inj (Except.ok.inj e)
    exact ⟨trivial, fun c hc => by
      by_cases hca : c = a
      · exact absurd (hca ▸ hc) h
      · simp [Mem.set, hca]⟩
  · exact nomatch e

theorem ite {c : Prop} [Decidable c] {x y : M w α} (hx : Keeps own b x Q) (hy : Keeps own b y Q) : Keeps own b (if c then x else y) Q := by
  split <;> assumption

theorem accessOk {k : Nat} {a : Int} : Keeps own b (BitLib.accessOk own k a : M w _) fun _ => own a = k := by
  unfold BitLib.accessOk
  split
  · exact ret ‹_›
  · exact ub

theorem inBlock {k : Nat} {x : M w α} {Q : α → Prop} (hx : Keeps own b x Q) : Keeps own b (BitLib.inBlock k x) fun r => r.block = k :=
  seq hx fun _ _ => ret rfl

theorem inBlock2 {k : Nat} {x : M w (α × α)} {Q : α × α → Prop} (hx : Keeps own b x Q) :
    Keeps own b (BitLib.inBlock2 k x) fun r => r.1.block = k ∧ r.2.block = k :=
  seq hx fun _ _ => ret ⟨rfl, rfl⟩

theorem useSlot {γ : Type} {u : M w α} {x : Option γ} {k : γ → M w α} (hu : Keeps own b u Q) (h : ∀ a, x = some a → Keeps own b (k a) Q) :
    Keeps own b (BitLib.useSlot u x k) Q := by
  cases x with
  | none => exact hu
  | some a => exact h a rfl

theorem toBool {r : BitRef w} : Keeps own b r.toBool fun _ => True := seq load fun _ _ => ret trivial

theorem set {r : BitRef w} (h : own r.ptr ≠ b) : Keeps own b r.set fun _ => True := seq load fun _ _ => store h
theorem reset {r : BitRef w} (h : own r.ptr ≠ b) : Keeps own b r.reset fun _ => True := seq load fun _ _ => store h
theorem flip {r : BitRef w} (h : own r.ptr ≠ b) : Keeps own b r.flip fun _ => True := seq load fun _ _ => store h

theorem assignRef {r q : BitRef w} (h : own r.ptr ≠ b) : Keeps own b (r.assignRef q) fun _ => True :=
  seq toBool fun _ _ => ite (set h) (reset h)

theorem upd {r : BitRef w} {u : Upd} (h : own r.ptr ≠ b) : Keeps own b (r.upd u) fun _ => True := by
  cases u with
  | set => exact set h
  | reset => exact reset h
  | flip => exact flip h
  | setTo x => exact ite (set h) (reset h)
  | assign x => exact ite (set h) (reset h)
  | and x => exact seq load fun _ _ => store h
  | or x => exact seq load fun _ _ => store h
  | xor x => exact seq load fun _ _ => store h

theorem toVal {r : BitRef w} : Keeps own b r.toVal fun _ => True := seq toBool fun _ _ => ret trivial

theorem swap {r q : BitRef w} (h : own r.ptr ≠ b) (h' : own q.ptr ≠ b) : Keeps own b (BitRef.swap r q) fun _ => True := by
  unfold BitRef.swap
  refine seq toVal fun _ _ => seq toVal fun _ _ => ?_
  exact ite (seq (flip h) fun _ _ => flip h') (ret trivial)

theorem swapVal {r : BitRef w} {v : BitVal} (h : own r.ptr ≠ b) : Keeps own b (BitRef.swapVal r v) fun _ => True := by
  unfold BitRef.swapVal
  refine seq toVal fun _ _ => ?_
  exact ite (seq (flip h) fun _ _ => ret trivial) (ret trivial)

theorem distance {x y : BitIter w} : Keeps own b (BitLib.distance x y) fun _ => True :=
  seq (Q := fun _ => True) (by unfold assertViable assertM; exact ite (ret trivial) ub) fun _ _ => ret trivial

end Keeps

/-! ### Read-only access is kept -/

namespace ReadOnly
variable {b : Nat} {Γ : Tys} {s : BlockSlots w} {k : Nat}

theorem putIt (h : ReadOnly b Γ s) {t : ItTy} {x : InBlock (BitIter w)} (hx : x.block = b → t.it.const = true) : ReadOnly b (Γ.putIt k t) (s.putIt k x) := by
  refine ⟨fun j y e hb => ?_, h.ref, h.ptr⟩
  simp only [Slots.putIt, Tys.putIt, putSlot] at e ⊢
  split at e
  · rename_i hj; subst hj
    cases e
    exact ⟨t, by simp, hx hb⟩
  · rename_i hj
    simpa [hj] using h.it j y e hb

theorem putRef (h : ReadOnly b Γ s) {t : RefTy} {x : InBlock (BitRef w)} (hx : x.block = b → t.word = true) : ReadOnly b (Γ.putRef k t) (s.putRef k x) := by
  refine ⟨h.it, fun j y e hb => ?_, h.ptr⟩
  simp only [Slots.putRef, Tys.putRef, putSlot] at e ⊢
  split at e
  · rename_i hj; subst hj
    cases e
    exact ⟨t, by simp, hx hb⟩
  · rename_i hj
    simpa [hj] using h.ref j y e hb

theorem putPtr (h : ReadOnly b Γ s) {t : Bool} {x : InBlock (BitPtr w)} (hx : x.block = b → t = true) : ReadOnly b (Γ.putPtr k t) (s.putPtr k x) := by
  refine ⟨h.it, h.ref, fun j y e hb => ?_⟩
  simp only [Slots.putPtr, Tys.putPtr, putSlot] at e ⊢
  split at e
  · rename_i hj; subst hj
    cases e
    simp [hx hb]
  · rename_i hj
    simpa [hj] using h.ptr j y e hb

theorem self_it {t : ItTy} (ht : Γ.it k = some t) : Γ.putIt k t = Γ := by
  have : putSlot Γ.it k t = Γ.it := funext fun j => by
    unfold putSlot; split
    · rename_i h; rw [h, ht]
    · rfl
  unfold Tys.putIt; rw [this]

theorem self_ptr {t : Bool} (ht : Γ.ptr k = some t) : Γ.putPtr k t = Γ := by
  have : putSlot Γ.ptr k t = Γ.ptr := funext fun j => by
    unfold putSlot; split
    · rename_i h; rw [h, ht]
    · rfl
  unfold Tys.putPtr; rw [this]

/-- In place, the type stays. -/
theorem setIt (h : ReadOnly b Γ s) {t : ItTy} {x : InBlock (BitIter w)} (ht : Γ.it k = some t) (hx : x.block = b → t.it.const = true) :
    ReadOnly b Γ (s.putIt k x) := by
  have := h.putIt (k := k) hx
  rwa [self_it ht] at this

theorem setPtr (h : ReadOnly b Γ s) {t : Bool} {x : InBlock (BitPtr w)} (ht : Γ.ptr k = some t) (hx : x.block = b → t = true) :
    ReadOnly b Γ (s.putPtr k x) := by
  have := h.putPtr (k := k) hx
  rwa [self_ptr ht] at this

theorem itConst (h : ReadOnly b Γ s) {x : InBlock (BitIter w)} {t : ItTy} (hx : s.it k = some x) (ht : Γ.it k = some t) (hb : x.block = b) : t.it.const = true := by
  obtain ⟨u, hu, hc⟩ := h.it k x hx hb
  rw [ht] at hu; cases hu; exact hc

theorem refConst (h : ReadOnly b Γ s) {x : InBlock (BitRef w)} {t : RefTy} (hx : s.ref k = some x) (ht : Γ.ref k = some t) (hb : x.block = b) : t.word = true := by
  obtain ⟨u, hu, hc⟩ := h.ref k x hx hb
  rw [ht] at hu; cases hu; exact hc

theorem ptrConst (h : ReadOnly b Γ s) {x : InBlock (BitPtr w)} {t : Bool} (hx : s.ptr k = some x) (ht : Γ.ptr k = some t) (hb : x.block = b) : t = true := by
  have := h.ptr k x hx hb
  rw [ht] at this; cases this; rfl

end ReadOnly

theorem withTy_some {x : Option α} {k : α → Option β} {y : β} : withTy x k = some y ↔ ∃ t, x = some t ∧ k t = some y := by
  cases x <;> simp [withTy]

theorem demand_some {c : Bool} {x y : β} : demand c x = some y ↔ c = true ∧ x = y := by
  cases c <;> simp [demand]

section
variable {S : ShiftSem w} {bi : Bool} {own : Int → Nat} {foreign : Foreign w} {b : Nat} {Γ Γ' : Tys} {s : BlockSlots w}

theorem WordIt.converts_const {a b : WordIt} (h : a.converts b = true) (ha : a.const = true) : b.const = true := by
  cases a <;> cases b <;> simp_all [WordIt.converts, WordIt.const]

namespace Keeps

theorem iop (o : IOp) (h : o.check Γ = some Γ') (hs : ReadOnly b Γ s) :
    Keeps own b (o.run (BitLib.ub .badRange) (blockIface S bi own foreign) s) fun r => ReadOnly b Γ' r.1 := by
  cases o <;> simp only [IOp.check, withTy_some, demand_some, Option.some.injEq] at h <;> simp only [IOp.run] <;> try simp only [blockIface, codeIface]
  case copyIt d i =>
    obtain ⟨t, ht, rfl⟩ := h
    exact useSlot ub fun a ha => ret (hs.putIt (hs.itConst ha ht))
  case addIt d i n =>
    obtain ⟨t, ht, rfl⟩ := h
    exact useSlot ub fun a ha => seq (inBlock (ret (Q := fun _ => True) trivial)) fun x hx => ret (hs.putIt (hx ▸ hs.itConst ha ht))
  case subIt d i n =>
    obtain ⟨t, ht, rfl⟩ := h
    exact useSlot ub fun a ha => seq (inBlock (ret (Q := fun _ => True) trivial)) fun x hx => ret (hs.putIt (hx ▸ hs.itConst ha ht))
  case incIt i =>
    obtain ⟨t, ht, _, rfl⟩ := h
    exact useSlot ub fun a ha => seq (inBlock (ret (Q := fun _ => True) trivial)) fun x hx => ret (hs.setIt ht (hx ▸ hs.itConst ha ht))
  case decIt i =>
    obtain ⟨t, ht, _, rfl⟩ := h
    exact useSlot ub fun a ha => seq (inBlock (ret (Q := fun _ => True) trivial)) fun x hx => ret (hs.setIt ht (hx ▸ hs.itConst ha ht))
  case addAssignIt i n =>
    obtain ⟨t, ht, _, rfl⟩ := h
    exact useSlot ub fun a ha => seq (inBlock (ret (Q := fun _ => True) trivial)) fun x hx => ret (hs.setIt ht (hx ▸ hs.itConst ha ht))
  case subAssignIt i n =>
    obtain ⟨t, ht, _, rfl⟩ := h
    exact useSlot ub fun a ha => seq (inBlock (ret (Q := fun _ => True) trivial)) fun x hx => ret (hs.setIt ht (hx ▸ hs.itConst ha ht))
  case postIncIt d i =>
    obtain ⟨t, ht, _, rfl⟩ := h
    exact useSlot ub fun a ha => seq (inBlock2 (ret (Q := fun _ => True) trivial)) fun x hx =>
      ret ((hs.setIt ht (hx.2 ▸ hs.itConst ha ht)).putIt (hx.1 ▸ hs.itConst ha ht))
  case postDecIt d i =>
    obtain ⟨t, ht, _, rfl⟩ := h
    exact useSlot ub fun a ha => seq (inBlock2 (ret (Q := fun _ => True) trivial)) fun x hx =>
      ret ((hs.setIt ht (hx.2 ▸ hs.itConst ha ht)).putIt (hx.1 ▸ hs.itConst ha ht))
  case diffIt i j =>
    obtain ⟨t, ht, u, hu, _, rfl⟩ := h
    exact useSlot ub fun a ha => useSlot ub fun c hc => seq (Q := fun _ => True) (ite (ret trivial) ub) fun _ _ => ret hs
  case cmpIt c i j =>
    obtain ⟨t, ht, u, hu, _, rfl⟩ := h
    exact useSlot ub fun a ha => useSlot ub fun c hc => seq (Q := fun _ => True) (ite (ret trivial) (ret trivial)) fun _ _ => ret hs
  case distance i j =>
    obtain ⟨t, ht, u, hu, _, rfl⟩ := h
    exact useSlot ub fun a ha => useSlot ub fun c hc => seq (Q := fun _ => True) (ite distance ub) fun _ _ => ret hs
  case derefIt r i =>
    obtain ⟨t, ht, rfl⟩ := h
    exact useSlot ub fun a ha => seq (inBlock (lift (Q := fun _ => True) fun _ => trivial)) fun x hx => ret (hs.putRef (hx ▸ hs.itConst ha ht))
  case indexIt r i n =>
    obtain ⟨t, ht, rfl⟩ := h
    exact useSlot ub fun a ha => seq (inBlock (lift (Q := fun _ => True) fun _ => trivial)) fun x hx => ret (hs.putRef (hx ▸ hs.itConst ha ht))
  case arrowIt p i =>
    obtain ⟨t, ht, rfl⟩ := h
    exact useSlot ub fun a ha => seq (inBlock (lift (Q := fun _ => True) fun _ => trivial)) fun x hx => ret (hs.putPtr (hx ▸ hs.itConst ha ht))
  case copyRef r q =>
    obtain ⟨t, ht, rfl⟩ := h
    exact useSlot ub fun a ha => ret (hs.putRef fun hb => show t.word = true from hs.refConst ha ht hb)
  case read r =>
    obtain ⟨t, ht, rfl⟩ := h
    exact useSlot ub fun a ha => seq (seq accessOk fun _ _ => toBool) fun _ _ => ret hs
  case upd u r =>
    obtain ⟨t, ht, hc, rfl⟩ := h
    refine useSlot ub fun a ha => seq (seq accessOk fun _ ho => upd fun hb => ?_) fun _ _ => ret hs
    simp [hs.refConst ha ht (ho.symm.trans hb)] at hc
  case assign r q =>
    obtain ⟨t, ht, u, hu, hc, rfl⟩ := h
    refine useSlot ub fun a ha => useSlot ub fun c _ => seq (seq accessOk fun _ ho => seq accessOk fun _ _ => assignRef fun hb => ?_) fun _ _ => ret hs
    simp [hs.refConst ha ht (ho.symm.trans hb)] at hc
  case swap r q =>
    obtain ⟨t, ht, u, hu, hc, rfl⟩ := h
    refine useSlot ub fun a ha => useSlot ub fun c hd => seq (seq accessOk fun _ ho => seq accessOk fun _ ho' => swap (fun hb => ?_) fun hb => ?_) fun _ _ => ret hs
    · simp [hs.refConst ha ht (ho.symm.trans hb)] at hc
    · simp [hs.refConst hd hu (ho'.symm.trans hb)] at hc
  case swapVal r x =>
    obtain ⟨t, ht, hc, rfl⟩ := h
    refine useSlot ub fun a ha => seq (Q := fun _ => True) (seq accessOk fun _ ho => seq (swapVal fun hb => ?_) fun _ _ => ret trivial) fun _ _ => ret hs
    simp [hs.refConst ha ht (ho.symm.trans hb)] at hc
  case addressOf p r =>
    obtain ⟨t, ht, rfl⟩ := h
    exact useSlot ub fun a ha => seq (inBlock (lift (Q := fun _ => True) fun _ => trivial)) fun x hx => ret (hs.putPtr (hx ▸ hs.refConst ha ht))
  case copyPtr d p =>
    obtain ⟨t, ht, rfl⟩ := h
    exact useSlot ub fun a ha => ret (hs.putPtr (hs.ptrConst ha ht))
  case addPtr d p n =>
    obtain ⟨t, ht, rfl⟩ := h
    exact useSlot ub fun a ha => seq (inBlock (lift (Q := fun _ => True) fun _ => trivial)) fun x hx => ret (hs.putPtr (hx ▸ hs.ptrConst ha ht))
  case subPtr d p n =>
    obtain ⟨t, ht, rfl⟩ := h
    exact useSlot ub fun a ha => seq (inBlock (lift (Q := fun _ => True) fun _ => trivial)) fun x hx => ret (hs.putPtr (hx ▸ hs.ptrConst ha ht))
  case incPtr p =>
    obtain ⟨t, ht, rfl⟩ := h
    exact useSlot ub fun a ha => seq (inBlock (lift (Q := fun _ => True) fun _ => trivial)) fun x hx => ret (hs.setPtr ht (hx ▸ hs.ptrConst ha ht))
  case decPtr p =>
    obtain ⟨t, ht, rfl⟩ := h
    exact useSlot ub fun a ha => seq (inBlock (lift (Q := fun _ => True) fun _ => trivial)) fun x hx => ret (hs.setPtr ht (hx ▸ hs.ptrConst ha ht))
  case postIncPtr d p =>
    obtain ⟨t, ht, rfl⟩ := h
    exact useSlot ub fun a ha => seq (inBlock2 (lift (Q := fun _ => True) fun _ => trivial)) fun x hx =>
      ret ((hs.setPtr ht (hx.2 ▸ hs.ptrConst ha ht)).putPtr (hx.1 ▸ hs.ptrConst ha ht))
  case postDecPtr d p =>
    obtain ⟨t, ht, rfl⟩ := h
    exact useSlot ub fun a ha => seq (inBlock2 (lift (Q := fun _ => True) fun _ => trivial)) fun x hx =>
      ret ((hs.setPtr ht (hx.2 ▸ hs.ptrConst ha ht)).putPtr (hx.1 ▸ hs.ptrConst ha ht))
  case diffPtr p q =>
    obtain ⟨t, ht, u, hu, rfl⟩ := h
    exact useSlot ub fun a ha => useSlot ub fun c hc => seq (Q := fun _ => True) (ite (lift fun _ => trivial) ub) fun _ _ => ret hs
  case cmpPtr c p q =>
    obtain ⟨t, ht, u, hu, rfl⟩ := h
    exact useSlot ub fun a ha => useSlot ub fun c hc => seq (Q := fun _ => True) (ite (lift fun _ => trivial) (lift fun _ => trivial)) fun _ _ => ret hs
  case derefPtr r p =>
    obtain ⟨t, ht, rfl⟩ := h
    exact useSlot ub fun a ha => seq (inBlock (ret (Q := fun _ => True) trivial)) fun x hx => ret (hs.putRef (hx ▸ hs.ptrConst ha ht))
  case indexPtr r p n =>
    obtain ⟨t, ht, rfl⟩ := h
    exact useSlot ub fun a ha => seq (inBlock (lift (Q := fun _ => True) fun _ => trivial)) fun x hx => ret (hs.putRef (hx ▸ hs.ptrConst ha ht))

theorem top (o : TOp) (h : o.check Γ = some Γ') (hs : ReadOnly b Γ s) :
    Keeps own b (o.erase.run (BitLib.ub .badRange) (blockIface S bi own foreign) s) fun r => ReadOnly b Γ' r.1 := by
  cases o <;> simp only [TOp.check, withTy_some, demand_some, Bool.and_eq_true] at h
  case op o => exact iop o h hs
  case convIt d i t =>
    obtain ⟨u, hu, ⟨_, hc⟩, rfl⟩ := h
    exact useSlot ub fun a ha => ret (hs.putIt fun hb => WordIt.converts_const hc (hs.itConst ha hu hb))
  case assignIt d i =>
    obtain ⟨t, ht, u, hu, ⟨he, _⟩, rfl⟩ := h
    have he := eq_of_beq he
    subst he
    exact useSlot ub fun a ha => ret (hs.setIt ht (hs.itConst ha hu))
  case convRef d r t =>
    obtain ⟨u, hu, hc, rfl⟩ := h
    exact useSlot ub fun a ha => ret (hs.putRef fun hb => by simpa [hs.refConst ha hu hb] using hc)
  case convPtr d p c =>
    obtain ⟨u, hu, hc, rfl⟩ := h
    exact useSlot ub fun a ha => ret (hs.putPtr fun hb => by simpa [hs.ptrConst ha hu hb] using hc)
  case assignPtr d p =>
    obtain ⟨t, ht, u, hu, he, rfl⟩ := h
    have he := eq_of_beq he
    subst he
    exact useSlot ub fun a ha => ret (hs.setPtr ht (hs.ptrConst ha hu))

end Keeps

theorem TClient.keeps (c : TClient α) (h : c.Compiles Γ) (hs : ReadOnly b Γ s) :
    Keeps own b (c.erase.blocks S bi own foreign s) fun _ => True := by
  induction c generalizing Γ s with
  | done x => exact Keeps.ret trivial
  | call op next ih =>
    obtain ⟨Γ', h1, h2⟩ := h
    exact Keeps.seq (Keeps.top op h1 hs) fun r hr => ih r.2 (h2 r.2) hr

end

/-! ### Blocks and addresses -/

/-- `y` computes what `x` does, up to `f`; if `full` holds, it is also undefined where `x` is. -/
def Mirrors {γ : Type} (full : Prop) (x : M w α) (y : M w γ) (f : α → γ) (Inv : α → Prop) : Prop :=
  ∀ m, (∀ r m', x m = .ok (r, m') → Inv r ∧ y m = .ok (f r, m')) ∧ (full → ∀ e, x m = .error e → y m = .error e)

namespace Mirrors
variable {γ δ : Type} {full : Prop} {f : α → γ} {g : β → δ} {Q : α → Prop} {R : β → Prop}

theorem ret {x : α} {y : γ} (h : y = f x) (hq : Q x) : Mirrors full (pure x : M w α) (pure y : M w γ) f Q := by
  refine fun m => ⟨fun r m' e => ?_, fun _ e he => nomatch he⟩
  obtain ⟨rfl, rfl⟩ := Prod.mk.inj (Except.ok.inj e)
  exact ⟨hq, by rw [h]; rfl⟩

theorem ub {e : UB} : Mirrors full (BitLib.ub e : M w α) (BitLib.ub e) f Q :=
  fun _ => ⟨fun _ _ h => (nomatch h), fun _ _ h => by cases h; rfl⟩

theorem refl {x : M w α} : Mirrors full x x id fun _ => True :=
  fun _ => ⟨fun _ _ h => ⟨trivial, h⟩, fun _ _ h => h⟩

theorem seq {x : M w α} {y : M w γ} {k : α → M w β} {l : γ → M w δ} (hx : Mirrors full x y f Q) (hk : ∀ r, Q r → Mirrors full (k r) (l (f r)) g R) :
    Mirrors full (x >>= k) (y >>= l) g R := by
  intro m
  have ex : (x >>= k) m = (x m >>= fun p => k p.1 p.2) := rfl
  have ey : (y >>= l) m = (y m >>= fun p => l p.1 p.2) := rfl
  rw [ex, ey]
  cases h : x m with
  | error e => exact ⟨fun _ _ e => (nomatch e), fun hf e' he => by cases he; rw [(hx m).2 hf e h]; rfl⟩
  | ok p =>
    obtain ⟨h1, h2⟩ := (hx m).1 p.1 p.2 h
    rw [h2]
    exact hk p.1 h1 p.2

theorem inBlock {k : Nat} {x : M w α} : Mirrors full (BitLib.inBlock k x) x InBlock.val fun r => r.block = k := by
  intro m
  have ex : BitLib.inBlock k x m = (x m >>= fun p => .ok (⟨k, p.1⟩, p.2)) := rfl
  rw [ex]
  cases h : x m with
  | error e => exact ⟨fun _ _ e => (nomatch e), fun _ _ he => by cases he; rfl⟩
  | ok p => exact ⟨fun r m' e => by cases e; exact ⟨rfl, rfl⟩, fun _ _ he => (nomatch he)⟩

theorem inBlock2 {k : Nat} {x : M w (α × α)} :
    Mirrors full (BitLib.inBlock2 k x) x (fun r => (r.1.val, r.2.val)) fun r => r.1.block = k ∧ r.2.block = k := by
  intro m
  have ex : BitLib.inBlock2 k x m = (x m >>= fun p => .ok ((⟨k, p.1.1⟩, ⟨k, p.1.2⟩), p.2)) := rfl
  rw [ex]
  cases h : x m with
  | error e => exact ⟨fun _ _ e => (nomatch e), fun _ _ he => by cases he; rfl⟩
  | ok p => exact ⟨fun r m' e => by cases e; exact ⟨⟨rfl, rfl⟩, rfl⟩, fun _ _ he => (nomatch he)⟩

theorem guarded {c : Prop} [Decidable c] {e : UB} {x : M w α} (h : full → c) : Mirrors full (if c then x else BitLib.ub e) x id fun _ => True := by
  by_cases hc : c
  · rw [if_pos hc]; exact refl
  · rw [if_neg hc]
    exact fun _ => ⟨fun _ _ h => (nomatch h), fun hf => absurd (h hf) hc⟩

theorem access {own : Int → Nat} {k : Nat} {a : Int} {x : M w α} {y : M w α} (h : full → own a = k) (hx : Mirrors full x y id fun _ => True) :
    Mirrors full (accessOk own k a >>= fun _ => x) y id fun _ => True := by
  unfold accessOk
  by_cases hc : own a = k
  · rw [if_pos hc]; exact hx
  · rw [if_neg hc]
    exact fun _ => ⟨fun _ _ h => (nomatch h), fun hf => absurd (h hf) hc⟩

end Mirrors

namespace BlockSlots
variable {s : BlockSlots w} {b k : Nat}

theorem forget_putIt {x : InBlock (BitIter w)} : (BlockSlots.forget s).putIt k x.val = BlockSlots.forget (s.putIt k x) := by
  unfold forget Slots.putIt putSlot; congr; funext i; simp only; split <;> simp_all

theorem forget_putRef {x : InBlock (BitRef w)} : (BlockSlots.forget s).putRef k x.val = BlockSlots.forget (s.putRef k x) := by
  unfold forget Slots.putRef putSlot; congr; funext i; simp only; split <;> simp_all

theorem forget_putPtr {x : InBlock (BitPtr w)} : (BlockSlots.forget s).putPtr k x.val = BlockSlots.forget (s.putPtr k x) := by
  unfold forget Slots.putPtr putSlot; congr; funext i; simp only; split <;> simp_all

theorem AllIn.putIt (h : AllIn b s) {x : InBlock (BitIter w)} (hx : x.block = b) : AllIn b (s.putIt k x) := by
  refine ⟨fun j y e => ?_, h.ref, h.ptr⟩
  simp only [Slots.putIt, putSlot] at e
  split at e
  · cases e; exact hx
  · exact h.it j y e

theorem AllIn.putRef (h : AllIn b s) {x : InBlock (BitRef w)} (hx : x.block = b) : AllIn b (s.putRef k x) := by
  refine ⟨h.it, fun j y e => ?_, h.ptr⟩
  simp only [Slots.putRef, putSlot] at e
  split at e
  · cases e; exact hx
  · exact h.ref j y e

theorem AllIn.putPtr (h : AllIn b s) {x : InBlock (BitPtr w)} (hx : x.block = b) : AllIn b (s.putPtr k x) := by
  refine ⟨h.it, h.ref, fun j y e => ?_⟩
  simp only [Slots.putPtr, putSlot] at e
  split at e
  · cases e; exact hx
  · exact h.ptr j y e

end BlockSlots

section
variable {S : ShiftSem w} {bi : Bool} {own : Int → Nat} {b : Nat} {s : BlockSlots w}

/-- All words and variables are in block `b`. -/
structure OneBlock (own : Int → Nat) (b : Nat) (s : BlockSlots w) : Prop where
  own : ∀ a, own a = b
  all : BlockSlots.AllIn b s

namespace Mirrors
variable {full : Prop}

theorem useIt {α' β' : Type} {k : Nat} {u : M w α'} {v : M w β'} {f : α' → β'} {Q : α' → Prop} {x : InBlock (BitIter w) → M w α'} {y : BitIter w → M w β'} (hu : Mirrors full u v f Q)
    (h : ∀ a, s.it k = some a → Mirrors full (x a) (y a.val) f Q) : Mirrors full (useSlot u (s.it k) x) (useSlot v ((BlockSlots.forget s).it k) y) f Q := by
  simp only [BlockSlots.forget]
  cases e : s.it k with
  | none => exact hu
  | some a => exact h a e

theorem useRef {α' β' : Type} {k : Nat} {u : M w α'} {v : M w β'} {f : α' → β'} {Q : α' → Prop} {x : InBlock (BitRef w) → M w α'} {y : BitRef w → M w β'} (hu : Mirrors full u v f Q)
    (h : ∀ a, s.ref k = some a → Mirrors full (x a) (y a.val) f Q) : Mirrors full (useSlot u (s.ref k) x) (useSlot v ((BlockSlots.forget s).ref k) y) f Q := by
  simp only [BlockSlots.forget]
  cases e : s.ref k with
  | none => exact hu
  | some a => exact h a e

theorem usePtr {α' β' : Type} {k : Nat} {u : M w α'} {v : M w β'} {f : α' → β'} {Q : α' → Prop} {x : InBlock (BitPtr w) → M w α'} {y : BitPtr w → M w β'} (hu : Mirrors full u v f Q)
    (h : ∀ a, s.ptr k = some a → Mirrors full (x a) (y a.val) f Q) : Mirrors full (useSlot u (s.ptr k) x) (useSlot v ((BlockSlots.forget s).ptr k) y) f Q := by
  simp only [BlockSlots.forget]
  cases e : s.ptr k with
  | none => exact hu
  | some a => exact h a e

theorem iop (o : IOp) (hf : full → OneBlock own b s) :
    Mirrors full (o.run (BitLib.ub .badRange) (blockIface S bi own (.flat bi)) s) (o.run (BitLib.ub .badRange) (codeIface S bi) (BlockSlots.forget s))
      (fun r => (BlockSlots.forget r.1, r.2)) fun r => full → OneBlock own b r.1 := by
  cases o <;> simp only [IOp.run] <;> (try simp only [blockIface, codeIface, Foreign.flat, ite_self])
  case copyIt d i =>
    exact useIt ub fun a ha => ret (by rw [BlockSlots.forget_putIt]) fun h => ⟨(hf h).own, (hf h).all.putIt ((hf h).all.it _ _ ha)⟩
  case addIt | subIt | incIt | decIt | addAssignIt | subAssignIt =>
    exact useIt ub fun a ha => seq inBlock fun x hx => ret (by rw [BlockSlots.forget_putIt]) fun h => ⟨(hf h).own, (hf h).all.putIt (hx.trans ((hf h).all.it _ _ ha))⟩
  case postIncIt | postDecIt =>
    exact useIt ub fun a ha => seq inBlock2 fun x hx => ret (by simp only [BlockSlots.forget_putIt]) fun h =>
      ⟨(hf h).own, ((hf h).all.putIt (hx.2.trans ((hf h).all.it _ _ ha))).putIt (hx.1.trans ((hf h).all.it _ _ ha))⟩
  case diffIt | distance =>
    exact useIt ub fun a ha => useIt ub fun c hc => seq (guarded fun h => ((hf h).all.it _ _ ha).trans ((hf h).all.it _ _ hc).symm) fun _ _ => ret rfl hf
  case cmpIt =>
    exact useIt ub fun a ha => useIt ub fun c hc => seq refl fun _ _ => ret rfl hf
  case derefIt | indexIt =>
    exact useIt ub fun a ha => seq inBlock fun x hx => ret (by rw [BlockSlots.forget_putRef]) fun h => ⟨(hf h).own, (hf h).all.putRef (hx.trans ((hf h).all.it _ _ ha))⟩
  case arrowIt =>
    exact useIt ub fun a ha => seq inBlock fun x hx => ret (by rw [BlockSlots.forget_putPtr]) fun h => ⟨(hf h).own, (hf h).all.putPtr (hx.trans ((hf h).all.it _ _ ha))⟩
  case copyRef =>
    exact useRef ub fun a ha => ret (by rw [BlockSlots.forget_putRef]) fun h => ⟨(hf h).own, (hf h).all.putRef ((hf h).all.ref _ _ ha)⟩
  case read | upd | swapVal =>
    exact useRef ub fun a ha => seq (access (fun h => ((hf h).own _).trans ((hf h).all.ref _ _ ha).symm) refl) fun _ _ => ret rfl hf
  case assign | swap =>
    exact useRef ub fun a ha => useRef ub fun c hc => seq (access (fun h => ((hf h).own _).trans ((hf h).all.ref _ _ ha).symm)
      (access (fun h => ((hf h).own _).trans ((hf h).all.ref _ _ hc).symm) refl)) fun _ _ => ret rfl hf
  case addressOf =>
    exact useRef ub fun a ha => seq inBlock fun x hx => ret (by rw [BlockSlots.forget_putPtr]) fun h => ⟨(hf h).own, (hf h).all.putPtr (hx.trans ((hf h).all.ref _ _ ha))⟩
  case copyPtr =>
    exact usePtr ub fun a ha => ret (by rw [BlockSlots.forget_putPtr]) fun h => ⟨(hf h).own, (hf h).all.putPtr ((hf h).all.ptr _ _ ha)⟩
  case addPtr | subPtr | incPtr | decPtr =>
    exact usePtr ub fun a ha => seq inBlock fun x hx => ret (by rw [BlockSlots.forget_putPtr]) fun h => ⟨(hf h).own, (hf h).all.putPtr (hx.trans ((hf h).all.ptr _ _ ha))⟩
  case postIncPtr | postDecPtr =>
    exact usePtr ub fun a ha => seq inBlock2 fun x hx => ret (by simp only [BlockSlots.forget_putPtr]) fun h =>
      ⟨(hf h).own, ((hf h).all.putPtr (hx.2.trans ((hf h).all.ptr _ _ ha))).putPtr (hx.1.trans ((hf h).all.ptr _ _ ha))⟩
  case diffPtr =>
    exact usePtr ub fun a ha => usePtr ub fun c hc => seq (guarded fun h => ((hf h).all.ptr _ _ ha).trans ((hf h).all.ptr _ _ hc).symm) fun _ _ => ret rfl hf
  case cmpPtr =>
    exact usePtr ub fun a ha => usePtr ub fun c hc => seq refl fun _ _ => ret rfl hf
  case derefPtr | indexPtr =>
    exact usePtr ub fun a ha => seq inBlock fun x hx => ret (by rw [BlockSlots.forget_putRef]) fun h => ⟨(hf h).own, (hf h).all.putRef (hx.trans ((hf h).all.ptr _ _ ha))⟩

theorem client (c : Client α) (hf : full → OneBlock own b s) :
    Mirrors full (c.blocks S bi own (.flat bi) s) (c.code S bi (BlockSlots.forget s)) (fun r => (r.1, BlockSlots.forget r.2)) fun _ => True := by
  induction c generalizing s with
  | done x => exact ret rfl trivial
  | call op next ih => exact seq (iop op hf) fun r hr => ih r.2 hr

end Mirrors

end

/-! ### Making a program read-only -/

theorem toConst_putIt {Γ : Tys} {k : Nat} {t : ItTy} : (Γ.putIt k t).toConst = Γ.toConst.putIt k t.toConst := by
  unfold Tys.putIt Tys.toConst putSlot; congr; funext i; simp only; split <;> rfl

theorem toConst_putRef {Γ : Tys} {k : Nat} {t : RefTy} : (Γ.putRef k t).toConst = Γ.toConst.putRef k t.toConst := by
  unfold Tys.putRef Tys.toConst putSlot; congr; funext i; simp only; split <;> rfl

theorem toConst_putPtr {Γ : Tys} {k : Nat} {t : Bool} : (Γ.putPtr k t).toConst = Γ.toConst.putPtr k true := by
  unfold Tys.putPtr Tys.toConst putSlot; congr; funext i; simp only; split <;> rfl

theorem toConst_it {Γ : Tys} {k : Nat} {t : ItTy} (h : Γ.it k = some t) : Γ.toConst.it k = some t.toConst := by simp [Tys.toConst, h]
theorem toConst_ref {Γ : Tys} {k : Nat} {t : RefTy} (h : Γ.ref k = some t) : Γ.toConst.ref k = some t.toConst := by simp [Tys.toConst, h]
theorem toConst_ptr {Γ : Tys} {k : Nat} {t : Bool} (h : Γ.ptr k = some t) : Γ.toConst.ptr k = some true := by simp [Tys.toConst, h]

theorem WordIt.const_toConst (i : WordIt) : i.toConst.const = true := by cases i <;> rfl
theorem WordIt.isPtr_toConst (i : WordIt) : i.toConst.isPtr = i.isPtr := by cases i <;> rfl
theorem WordIt.comparable_toConst (i j : WordIt) : i.toConst.comparable j.toConst = i.comparable j := by cases i <;> cases j <;> rfl
theorem WordIt.converts_toConst {i j : WordIt} (h : i.converts j = true) : i.toConst.converts j.toConst = true := by
  cases i <;> cases j <;> simp_all [WordIt.converts, WordIt.toConst]

theorem IOp.check_toConst {Γ Γ' : Tys} (o : IOp) (h : o.check Γ = some Γ') (ho : ¬ o.Changes) : o.check Γ.toConst = some Γ'.toConst := by
  cases o <;> simp only [IOp.check, withTy_some, demand_some, Option.some.injEq] at h ⊢
  case copyIt | addIt | subIt =>
    obtain ⟨t, ht, rfl⟩ := h
    exact ⟨_, toConst_it ht, toConst_putIt.symm⟩
  case incIt | decIt | addAssignIt | subAssignIt =>
    obtain ⟨t, ht, hd, rfl⟩ := h
    exact ⟨_, toConst_it ht, hd, rfl⟩
  case postIncIt | postDecIt =>
    obtain ⟨t, ht, hd, rfl⟩ := h
    exact ⟨_, toConst_it ht, hd, toConst_putIt.symm⟩
  case diffIt | cmpIt =>
    obtain ⟨t, ht, u, hu, hd, rfl⟩ := h
    exact ⟨_, toConst_it ht, _, toConst_it hu, (WordIt.comparable_toConst _ _).trans hd, rfl⟩
  case distance =>
    obtain ⟨t, ht, u, hu, hd, rfl⟩ := h
    exact ⟨_, toConst_it ht, _, toConst_it hu, by rw [eq_of_beq hd]; exact beq_self_eq_true _, rfl⟩
  case derefIt | indexIt =>
    obtain ⟨t, ht, rfl⟩ := h
    refine ⟨_, toConst_it ht, ?_⟩
    rw [toConst_putRef, show ItTy.const t.toConst = true from WordIt.const_toConst _]; rfl
  case arrowIt =>
    obtain ⟨t, ht, rfl⟩ := h
    refine ⟨_, toConst_it ht, ?_⟩
    rw [toConst_putPtr, show ItTy.const t.toConst = true from WordIt.const_toConst _]
  case copyRef =>
    obtain ⟨t, ht, rfl⟩ := h
    exact ⟨_, toConst_ref ht, by rw [toConst_putRef]; rfl⟩
  case read =>
    obtain ⟨t, ht, rfl⟩ := h
    exact ⟨_, toConst_ref ht, rfl⟩
  case upd | assign | swap | swapVal => exact (ho trivial).elim
  case addressOf =>
    obtain ⟨t, ht, rfl⟩ := h
    exact ⟨_, toConst_ref ht, toConst_putPtr.symm⟩
  case copyPtr | addPtr | subPtr | postIncPtr | postDecPtr =>
    obtain ⟨t, ht, rfl⟩ := h
    exact ⟨_, toConst_ptr ht, toConst_putPtr.symm⟩
  case incPtr | decPtr =>
    obtain ⟨t, ht, rfl⟩ := h
    exact ⟨_, toConst_ptr ht, rfl⟩
  case diffPtr | cmpPtr =>
    obtain ⟨t, ht, u, hu, rfl⟩ := h
    exact ⟨_, toConst_ptr ht, _, toConst_ptr hu, rfl⟩
  case derefPtr | indexPtr =>
    obtain ⟨t, ht, rfl⟩ := h
    refine ⟨_, toConst_ptr ht, ?_⟩
    rw [toConst_putRef]; rfl

theorem TOp.check_toConst {Γ Γ' : Tys} (o : TOp) (h : o.check Γ = some Γ') (ho : ¬ o.Changes) : o.toConst.check Γ.toConst = some Γ'.toConst := by
  cases o <;> simp only [TOp.toConst, TOp.check, withTy_some, demand_some, Bool.and_eq_true] at h ⊢
  case op o => exact o.check_toConst h ho
  case convIt d i t =>
    obtain ⟨u, hu, ⟨hw, hc⟩, rfl⟩ := h
    refine ⟨_, toConst_it hu, ⟨?_, WordIt.converts_toConst hc⟩, toConst_putIt.symm⟩
    unfold ItTy.wf ItTy.toConst at *
    rw [WordIt.isPtr_toConst]; exact hw
  case assignIt d i =>
    obtain ⟨t, ht, u, hu, ⟨he, hd⟩, rfl⟩ := h
    exact ⟨_, toConst_it ht, _, toConst_it hu, ⟨by rw [eq_of_beq he]; exact beq_self_eq_true _, hd⟩, rfl⟩
  case convRef d r t =>
    obtain ⟨u, hu, hc, rfl⟩ := h
    exact ⟨_, toConst_ref hu, rfl, toConst_putRef.symm⟩
  case convPtr d p c =>
    obtain ⟨u, hu, hc, rfl⟩ := h
    exact ⟨_, toConst_ptr hu, rfl, toConst_putPtr.symm⟩
  case assignPtr d p =>
    obtain ⟨t, ht, u, hu, he, rfl⟩ := h
    exact ⟨_, toConst_ptr ht, _, toConst_ptr hu, rfl, rfl⟩

theorem toConst_word {Γ : Tys} {k : Nat} {t : RefTy} (h : Γ.toConst.ref k = some t) : t.word = true := by
  simp only [Tys.toConst, Option.map_eq_some_iff] at h
  obtain ⟨u, _, rfl⟩ := h
  rfl

/-- An operation that changes a bit does not compile with `const` words only. -/
theorem TOp.check_toConst_none {Γ : Tys} (o : TOp) (ho : o.Changes) : o.toConst.check Γ.toConst = none := by
  cases o with
  | op o =>
    cases o <;> first | exact False.elim ho | skip
    case upd u r =>
      rw [Option.eq_none_iff_forall_ne_some]; intro y h
      simp only [TOp.toConst, TOp.check, IOp.check, withTy_some, demand_some] at h
      obtain ⟨t, ht, hc, _⟩ := h
      simp [toConst_word ht] at hc
    case assign r q =>
      rw [Option.eq_none_iff_forall_ne_some]; intro y h
      simp only [TOp.toConst, TOp.check, IOp.check, withTy_some, demand_some] at h
      obtain ⟨t, ht, _, _, hc, _⟩ := h
      simp [toConst_word ht] at hc
    case swap r q =>
      rw [Option.eq_none_iff_forall_ne_some]; intro y h
      simp only [TOp.toConst, TOp.check, IOp.check, withTy_some, demand_some] at h
      obtain ⟨t, ht, _, _, hc, _⟩ := h
      simp [toConst_word ht] at hc
    case swapVal r x =>
      rw [Option.eq_none_iff_forall_ne_some]; intro y h
      simp only [TOp.toConst, TOp.check, IOp.check, withTy_some, demand_some] at h
      obtain ⟨t, ht, hc, _⟩ := h
      simp [toConst_word ht] at hc
  | _ => exact False.elim ho

/-! ### `bit_iterator<const It>` -/

theorem withTop_putIt {Γ : Tys} {k : Nat} {t : ItTy} {b : Bool} : (Γ.putIt k t).withTop b = (Γ.withTop b).putIt k ⟨t.it, b⟩ := by
  unfold Tys.putIt Tys.withTop putSlot; congr; funext i; simp only; split <;> rfl

theorem withTop_it {Γ : Tys} {k : Nat} {b : Bool} : (Γ.withTop b).it k = (Γ.it k).map fun t => ⟨t.it, b⟩ := rfl

/-- How the types change does not depend on whether the iterators are `const` inside; that it compiles depends on it where an iterator is moved. -/
theorem IOp.check_top (Γ : Tys) (o : IOp) :
    (∃ Γ' : Tys, o.check (Γ.withTop false) = some (Γ'.withTop false) ∧ (¬ o.Moves → o.check (Γ.withTop true) = some (Γ'.withTop true)) ∧
      (o.Moves → o.check (Γ.withTop true) = none)) ∨ (o.check (Γ.withTop false) = none ∧ o.check (Γ.withTop true) = none) := by
  cases o <;> simp only [IOp.check, withTop_it]
  case copyIt d i | addIt d i _ | subIt d i _ =>
    cases h : Γ.it i with
    | none => exact .inr ⟨rfl, rfl⟩
    | some t => exact .inl ⟨Γ.putIt d t, by rw [withTop_putIt]; rfl, fun _ => by rw [withTop_putIt]; rfl, fun h => h.elim⟩
  case incIt i | decIt i | addAssignIt i _ | subAssignIt i _ =>
    cases h : Γ.it i with
    | none => exact .inr ⟨rfl, rfl⟩
    | some t => exact .inl ⟨Γ, rfl, fun h => (h trivial).elim, fun _ => rfl⟩
  case postIncIt d i | postDecIt d i =>
    cases h : Γ.it i with
    | none => exact .inr ⟨rfl, rfl⟩
    | some t => exact .inl ⟨Γ.putIt d t, by rw [withTop_putIt]; rfl, fun h => (h trivial).elim, fun _ => rfl⟩
  case diffIt i j | cmpIt _ i j =>
    cases hi : Γ.it i with
    | none => exact .inr ⟨rfl, rfl⟩
    | some t =>
      cases hj : Γ.it j with
      | none => exact .inr ⟨rfl, rfl⟩
      | some u =>
        cases hc : t.it.comparable u.it with
        | false => exact .inr ⟨by simp [withTy, demand, hc], by simp [withTy, demand, hc]⟩
        | true => exact .inl ⟨Γ, by simp [withTy, demand, hc], fun _ => by simp [withTy, demand, hc], fun h => h.elim⟩
  case distance i j =>
    cases hi : Γ.it i with
    | none => exact .inr ⟨rfl, rfl⟩
    | some t =>
      cases hj : Γ.it j with
      | none => exact .inr ⟨rfl, rfl⟩
      | some u =>
        by_cases hc : t.it = u.it
        · exact .inl ⟨Γ, by simp [withTy, demand, hc], fun _ => by simp [withTy, demand, hc], fun h => h.elim⟩
        · exact .inr ⟨by simp [withTy, demand, hc], by simp [withTy, demand, hc]⟩
  case derefIt r i | indexIt r i _ =>
    cases h : Γ.it i with
    | none => exact .inr ⟨rfl, rfl⟩
    | some t => exact .inl ⟨Γ.putRef r ⟨false, t.const⟩, rfl, fun _ => rfl, fun h => h.elim⟩
  case arrowIt p i =>
    cases h : Γ.it i with
    | none => exact .inr ⟨rfl, rfl⟩
    | some t => exact .inl ⟨Γ.putPtr p t.const, rfl, fun _ => rfl, fun h => h.elim⟩
  case copyRef r q =>
    cases h : Γ.ref q with
    | none => exact .inr ⟨by simp [Tys.withTop, h, withTy], by simp [Tys.withTop, h, withTy]⟩
    | some t => exact .inl ⟨Γ.putRef r ⟨false, t.word⟩, by simp [Tys.withTop, h, withTy, Tys.putRef], fun _ => by simp [Tys.withTop, h, withTy, Tys.putRef], fun h => h.elim⟩
  case addressOf p r =>
    cases h : Γ.ref r with
    | none => exact .inr ⟨by simp [Tys.withTop, h, withTy], by simp [Tys.withTop, h, withTy]⟩
    | some t => exact .inl ⟨Γ.putPtr p t.word, by simp [Tys.withTop, h, withTy, Tys.putPtr], fun _ => by simp [Tys.withTop, h, withTy, Tys.putPtr], fun h => h.elim⟩
  case read r | swapVal r _ | upd _ r =>
    cases h : Γ.ref r with
    | none => exact .inr ⟨by simp [Tys.withTop, h, withTy], by simp [Tys.withTop, h, withTy]⟩
    | some t =>
      obtain ⟨o, wd⟩ := t
      cases o <;> cases wd <;> first
        | (refine .inl ⟨Γ, ?_, fun _ => ?_, fun h => h.elim⟩ <;> (simp [Tys.withTop, h, withTy, demand]; done))
        | (refine .inr ⟨?_, ?_⟩ <;> (simp [Tys.withTop, h, withTy, demand]; done))
  case assign r q | swap r q =>
    cases h : Γ.ref r with
    | none => exact .inr ⟨by simp [Tys.withTop, h, withTy], by simp [Tys.withTop, h, withTy]⟩
    | some t =>
      cases h' : Γ.ref q with
      | none => exact .inr ⟨by simp [Tys.withTop, h, h', withTy], by simp [Tys.withTop, h, h', withTy]⟩
      | some u =>
        obtain ⟨o, wd⟩ := t
        obtain ⟨o', wd'⟩ := u
        cases o <;> cases wd <;> cases wd' <;> first
          | (refine .inl ⟨Γ, ?_, fun _ => ?_, fun h => h.elim⟩ <;> (simp [Tys.withTop, h, h', withTy, demand]; done))
          | (refine .inr ⟨?_, ?_⟩ <;> (simp [Tys.withTop, h, h', withTy, demand]; done))
  case copyPtr d p | addPtr d p _ | subPtr d p _ | postIncPtr d p | postDecPtr d p =>
    cases h : Γ.ptr p with
    | none => exact .inr ⟨by simp [Tys.withTop, h, withTy], by simp [Tys.withTop, h, withTy]⟩
    | some t => exact .inl ⟨Γ.putPtr d t, by simp [Tys.withTop, h, withTy, Tys.putPtr], fun _ => by simp [Tys.withTop, h, withTy, Tys.putPtr], fun h => h.elim⟩
  case derefPtr r p | indexPtr r p _ =>
    cases h : Γ.ptr p with
    | none => exact .inr ⟨by simp [Tys.withTop, h, withTy], by simp [Tys.withTop, h, withTy]⟩
    | some t => exact .inl ⟨Γ.putRef r ⟨false, t⟩, by simp [Tys.withTop, h, withTy, Tys.putRef], fun _ => by simp [Tys.withTop, h, withTy, Tys.putRef], fun h => h.elim⟩
  case incPtr p | decPtr p =>
    cases h : Γ.ptr p with
    | none => exact .inr ⟨by simp [Tys.withTop, h, withTy], by simp [Tys.withTop, h, withTy]⟩
    | some t => exact .inl ⟨Γ, by simp [Tys.withTop, h, withTy], fun _ => by simp [Tys.withTop, h, withTy], fun h => h.elim⟩
  case diffPtr p q | cmpPtr _ p q =>
    cases h : Γ.ptr p with
    | none => exact .inr ⟨by simp [Tys.withTop, h, withTy], by simp [Tys.withTop, h, withTy]⟩
    | some t =>
      cases h' : Γ.ptr q with
      | none => exact .inr ⟨by simp [Tys.withTop, h, h', withTy], by simp [Tys.withTop, h, h', withTy]⟩
      | some u => exact .inl ⟨Γ, by simp [Tys.withTop, h, h', withTy], fun _ => by simp [Tys.withTop, h, h', withTy], fun h => h.elim⟩

end BitLib
