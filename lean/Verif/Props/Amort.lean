import Verif.Lemmas.Amort
import Verif.Props.Exact
/-
C95: what programs on `bit_vector`s cost. Words loaded and stored and requests for storage are counted call by call; `SpecAmort` states the prices.
-/
namespace BitLib
open Billed
variable {w : Nat}

/-- C95: the billed programs are the model: without the bill, a call and a history do exactly what the functions do that the other theorems are
about, undefined behaviour included. -/
theorem C95_text (S : ShiftSem w) (P : Policy) (vs : List BV) (op : Op w) (ops : List (Op w)) (h : Heap w) (b : Bill) :
    (op.execK S P vs (h, b)).map (fun r => (r.1, r.2.1)) = op.exec S P vs h ∧ (runHistK S P vs ops (h, b)).map (fun r => (r.1, r.2.1)) = runHist S P vs ops h :=
  ⟨e_exec S P vs op h b, e_hist S P vs ops h b⟩

/-- A billed program ends as the program does. -/
theorem Erases.ok {α : Type} {p : K w α} {q : V w α} (e : Erases p q) {h h' : Heap w} {x : α} (b : Bill) (hq : q h = .ok (x, h')) :
    ∃ b', p (h, b) = .ok (x, (h', b')) := by
  have := e h b
  rcases hp : p (h, b) with s | ⟨y, h1, b1⟩
  · rw [hp, hq] at this; cases this
  · rw [hp, hq] at this
    cases this
    exact ⟨b1, rfl⟩

/-- Histories are paid with the credit of the vectors and the prices of the calls. -/
theorem p_history {k : Nat} {P : Policy} {S : ShiftSem w} (hw : 0 < w) (hP : Grows k P) (ops : List (Op w)) {h : Heap w} {vs : List BV} {ls : List (List Bool)}
    (e : EnvOk h vs ls) (hv : Along (fun ls op => op.Pre ls ∧ op.Lim S ls) ops ls) :
    Pays (runHistK S P vs ops) h fun vs' _ a _ => Spends k (bank k vs) (shapeHist ops (shapeOf vs)) (priceHist k ops (shapeOf vs)) vs' a := by
  induction ops generalizing h vs ls with
  | nil => exact .pure ⟨rfl, by simp [priceHist]⟩
  | cons op ops ih =>
    obtain ⟨⟨h1, h2⟩, h3⟩ := hv
    obtain ⟨vs1, h1', e1, ok1⟩ := C35_step_partial hw S P h vs ls op e h1 h2
    unfold runHistK
    rw [List.foldlM_cons]
    refine .bind ((Pays.and (p_exec (S := S) hw hP op e h1 h2.1) (R := fun vs' h' _ _ => vs' = vs1 ∧ h' = h1') ?_).mono ?_)
    · intro b x h' b' he
      have := e_exec S P vs op h b
      rw [he, e1] at this
      cases this
      obtain ⟨n, r, hb, _⟩ := p_exec (S := S) hw hP op e h1 h2.1 b _ _ _ he
      exact ⟨n, r, hb, rfl, rfl⟩
    · rintro vs' h' a r ⟨⟨s1, s2⟩, rfl, rfl⟩
      refine (ih ok1 h3).mono ?_
      rintro vs'' h'' a' r' ⟨s3, s4⟩
      rw [s1] at s3 s4
      exact ⟨s3, by show _ ≤ _ + (op.price k (shapeOf vs) + priceHist k ops (op.shape (shapeOf vs))); omega⟩

/-- C95: a history of valid calls within the limits costs no more than the prices of its calls and two accesses for each word that the vectors have
at the start, if storage grows by its `k`-th part. The numbers of words and elements are those of the specification. -/
theorem C95_history (hw : 0 < w) (S : ShiftSem w) (P : Policy) (k : Nat) (hP : Grows k P) (h : Heap w) (vs : List BV) (ls : List (List Bool)) (ops : List (Op w))
    (e : EnvOk h vs ls) (hv : Along (fun ls op => op.Pre ls ∧ op.Lim S ls) ops ls) (b : Bill) :
    ∃ vs' h' n r, runHistK S P vs ops (h, b) = .ok (vs', (h', ⟨b.acc + n, b.req + r⟩)) ∧ EnvOk h' vs' (specHist ls ops) ∧
      shapeOf vs' = shapeHist ops (shapeOf vs) ∧ n ≤ priceHist k ops (shapeOf vs) + 2 * (shapeOf vs).total := by
  obtain ⟨vs', h', e1, ok⟩ := C35_history_partial hw S P h vs ls ops e hv
  obtain ⟨b', e2⟩ := (e_hist S P vs ops).ok b e1
  obtain ⟨n, r, rfl, s1, s2⟩ := p_history (S := S) hw hP ops e hv b _ _ _ e2
  refine ⟨vs', h', n, r, e2, ok, s1, ?_⟩
  have := bank_le k (vs := vs) fun v hv => by
    obtain ⟨i, hi, rfl⟩ := List.getElem_of_mem hv
    exact (e.rep i vs[i] _ (List.getElem?_eq_getElem hi) (List.getElem?_eq_getElem (h := by have := e.len; omega))).ok.cap
  omega

theorem wordsFor_mono {m n : Nat} (h : m ≤ n) : wordsFor w m ≤ wordsFor w n := by
  unfold wordsFor
  exact Nat.div_le_div_right (by omega)

theorem wordsFor_le (hw : 0 < w) (n : Nat) : wordsFor w n ≤ n / w + 1 := by
  unfold wordsFor
  calc (n + w - 1) / w ≤ (n + w) / w := Nat.div_le_div_right (by omega)
    _ = n / w + 1 := Nat.add_div_right n hw

/-- Words for the first of several elements, then for the others. -/
theorem wordsFor_split (hw : 0 < w) {s n m : Nat} (h : n ≤ s * w) :
    wordsFor w (n + 1 - s * w) + wordsFor w (n + 1 + m - (s + wordsFor w (n + 1 - s * w)) * w) = wordsFor w (n + 1 + m - s * w) := by
  rcases Nat.lt_or_ge n (s * w) with h3 | h3
  · rw [Nat.sub_eq_zero_of_le h3, wordsFor_zero hw, Nat.zero_add, Nat.add_zero s]
  · rw [show n + 1 - s * w = 1 by omega, wordsFor_one hw, Nat.succ_mul, show n + 1 + m - s * w = m + 1 by omega, show n + 1 + m - (s * w + w) = m + 1 - w by omega]
    rcases Nat.lt_or_ge w (m + 1) with h4 | h4
    · unfold wordsFor
      rw [show m + 1 + w - 1 = (m + 1 - w + w - 1) + w by omega, Nat.add_div_right _ hw]
      omega
    · rw [Nat.sub_eq_zero_of_le h4, wordsFor_zero hw]
      exact (wordsFor_eq hw (by omega) (by omega)).symm

/-- The price of pushing many elements. -/
theorem priceHist_push (hw : 0 < w) (k i : Nat) (l : List Bool) : ∀ {σ : Shape} {s n : Nat}, σ[i]? = some (s, n) → n ≤ s * w →
    priceHist k (l.map (Op.push (w := w) i)) σ = 2 * l.length + (4 * k + 1) * wordsFor w (n + l.length - s * w) := by
  induction l with
  | nil =>
    intro σ s n hσ hn
    show 0 = 2 * 0 + (4 * k + 1) * wordsFor w (n - s * w)
    rw [Nat.sub_eq_zero_of_le hn, wordsFor_zero hw]
    omega
  | cons b l ih =>
    intro σ s n hσ hn
    have hi : i < σ.length := (List.getElem?_eq_some_iff.1 hσ).1
    have h1 : σ.words i = s := by simp [Shape.words, hσ]
    have h2 : σ.elems i = n := by simp [Shape.elems, hσ]
    have h3 : σ.added w i 1 = wordsFor w (n + 1 - s * w) := by unfold Shape.added; rw [h1, h2]
    have h4 : n + 1 ≤ (s + wordsFor w (n + 1 - s * w)) * w := by
      have := wordsFor_ge hw (n + 1 - s * w)
      rw [Nat.add_mul]
      omega
    have := ih (σ := (Op.push (w := w) i b).shape σ) (s := s + wordsFor w (n + 1 - s * w)) (n := n + 1)
      (by show (σ.set i (σ.words i + σ.added w i 1, σ.elems i + 1))[i]? = _; rw [List.getElem?_set, if_pos rfl, if_pos hi, h1, h2, h3]) h4
    show (2 + (4 * k + 1) * σ.added w i 1) + priceHist k _ _ = _
    have hs := wordsFor_split (m := l.length) hw hn
    rw [this, h3, List.length_cons, show n + (l.length + 1) = n + 1 + l.length by omega, ← hs, Nat.mul_add (4 * k + 1)]
    omega

/-- C95: `push_back` takes amortised constant time: appending `m` elements to a vector of `s` words costs two accesses for each element, `4 k + 1` for
each word of `w` elements, and two for each word that was there. -/
theorem C95_push_back (hw : 0 < w) (S : ShiftSem w) (P : Policy) (k : Nat) (hP : Grows k P) (h : Heap w) (v : BV) (l0 : List Bool) (l : List Bool)
    (hh : h.WF) (hr : Rep h v l0) (b : Bill) :
    ∃ v' h' n r, runHistK S P [v] (l.map (Op.push 0)) (h, b) = .ok ([v'], (h', ⟨b.acc + n, b.req + r⟩)) ∧ Rep h' v' (l0 ++ l) ∧
      n ≤ 2 * l.length + (4 * k + 1) * (l.length / w + 1) + 2 * v.vec.size := by
  have e : EnvOk h [v] [l0] := by
    refine ⟨hh, rfl, ?_, ?_⟩
    · intro i u l' h1 h2
      rcases i with _ | i
      · cases h1; cases h2; exact hr
      · simp at h1
    · intro i j u o h1 h2 h3
      rcases i with _ | i <;> rcases j with _ | j
      · exact absurd rfl h3
      · simp at h2
      · simp at h1
      · simp at h1
  have ha : ∀ (l l0 : List Bool), Along (fun ls op => op.Pre ls ∧ op.Lim S ls) (l.map (Op.push (w := w) 0)) [l0] := by
    intro l
    induction l with
    | nil => exact fun _ => trivial
    | cons x l ih => exact fun l0 => ⟨⟨Nat.zero_lt_one, trivial, .inl trivial⟩, ih _⟩
  have hs : ∀ (l l0 : List Bool), specHist [l0] (l.map (Op.push (w := w) 0)) = [l0 ++ l] := by
    intro l
    induction l with
    | nil => intro l0; simp [specHist]
    | cons x l ih =>
      intro l0
      have := ih (l0 ++ [x])
      rw [List.append_assoc] at this
      exact this
  obtain ⟨vs', h', n, r, e1, ok, s1, hn⟩ := C95_history hw S P k hP h [v] [l0] (l.map (Op.push 0)) e (ha l l0) b
  rw [hs] at ok
  obtain ⟨v', rfl⟩ := List.length_eq_one_iff.1 ok.len
  refine ⟨v', h', n, r, e1, ok.rep 0 v' _ rfl rfl, ?_⟩
  rw [priceHist_push hw k 0 l (σ := shapeOf [v]) (s := v.vec.size) (n := v.length) rfl hr.fit] at hn
  have h1 := wordsFor_le hw l.length
  have h2 : wordsFor w (v.length + l.length - v.vec.size * w) ≤ l.length / w + 1 :=
    Nat.le_trans (wordsFor_mono (by have := hr.fit; omega)) h1
  have h3 := Nat.mul_le_mul_left (4 * k + 1) h2
  have h4 : (shapeOf [v]).total = v.vec.size := by simp [shapeOf, Shape.total]
  omega

/-- C95: reading an element is one access and no request. -/
theorem C95_read (S : ShiftSem w) (v : BV) (pos : Nat) (h h' : Heap w) (b b' : Bill) (x : Bool) (he : Billed.get S v pos (h, b) = .ok (x, (h', b'))) :
    b'.acc = b.acc + 1 ∧ b'.req = b.req ∧ h' = h := by
  have hp : Pays (Billed.get S v pos) h fun _ h1 n r => n = 1 ∧ r = 0 ∧ h1 = h := by
    refine .bind (.lift fun r _ => .code fun y m hm => ?_)
    have h1 : (Gen.refToBool r : Code w Bool).accesses h.mem = 1 := by
      unfold Gen.refToBool
      change Code.accesses (Code.load r.ptr _) h.mem = 1
      unfold Code.accesses
      split
      · rfl
      · rfl
    have h2 : m = h.mem := by
      have e : r.toBool h.mem = .ok (y, m) := by rw [← r_refToBool r]; exact hm
      have hx : r.toBool h.mem = (load r.ptr >>= fun x => pure (decide (x &&& r.mask ≠ 0#w)) : M w Bool) h.mem := rfl
      rw [hx] at e
      change (Except.bind (load r.ptr h.mem) _) = _ at e
      unfold load at e
      split at e
      · cases e; rfl
      · cases e
    subst h2
    exact ⟨by rw [h1], rfl, rfl⟩
  obtain ⟨n, r, rfl, rfl, rfl, rfl⟩ := hp b _ _ _ he
  exact ⟨rfl, rfl, rfl⟩

/-- C95: with storage that is at least doubled, appending asks for storage a logarithmic number of times: after `r` requests the vector has more than
`2 ^ r / 4` words. -/
theorem C95_requests (S : ShiftSem w) (P : Policy) (hP : Grows 1 P) (h h' : Heap w) (vs vs' : List BV) (i : Nat) (v : BV) (hv : vs[i]? = some v)
    (hc : v.vec.size ≤ v.vec.cap) (l : List Bool) (b b' : Bill) (he : runHistK S P vs (l.map (Op.push i)) (h, b) = .ok (vs', (h', b'))) :
    ∃ v', vs'[i]? = some v' ∧ (b'.req = b.req ∨ 2 ^ (b'.req - b.req) ≤ 4 * v'.vec.size) := by
  have := p_pushes (P := P) (S := S) (i := i) (h := h) (j := 0) (a := 0) (r := 0)
    (fun _ v _ r => v.vec.size ≤ v.vec.cap ∧ ((v.vec.cap = 0 ∧ r = 0) ∨ 2 ^ r ≤ 2 * v.vec.cap) ∧ (r = 0 ∨ 2 ^ r ≤ 4 * v.vec.size)) ?_ l hv
    ⟨hc, by rw [Nat.pow_zero]; omega, .inl rfl⟩
  · obtain ⟨n, r, rfl, v', h1, _, _, h2⟩ := this b _ _ _ he
    rw [Nat.zero_add] at h2
    refine ⟨v', h1, ?_⟩
    dsimp only
    rw [Nat.add_sub_cancel_left]
    omega
  · rintro j v x h a r ⟨h1, h2, h3⟩
    refine p_pushBack_cases (fun g0 a' _ => ⟨h1, h2, h3⟩) (fun g0 g1 a' _ => ⟨g1, h2, ?_⟩) (fun g0 g1 p a' _ => ?_)
    · dsimp only
      rw [Nat.add_zero]
      omega
    · have g2 := hP.2 v.vec.cap (v.vec.size + 1)
      have g3 := P.grow_ok v.vec.cap (v.vec.size + 1)
      rw [Nat.div_one] at g2
      rw [Nat.pow_succ]
      dsimp only
      refine ⟨g3, .inr ?_, .inr ?_⟩
      · rcases h2 with ⟨h2, h4⟩ | h2
        · subst h4; omega
        · omega
      · rcases h2 with ⟨h2, h4⟩ | h2
        · subst h4; omega
        · omega

/-- C95: within the capacity, appending asks for no storage and moves nothing: at most three accesses for each element. -/
theorem C95_reserved (hw : 0 < w) (S : ShiftSem w) (P : Policy) (h h' : Heap w) (vs vs' : List BV) (i : Nat) (v : BV) (hv : vs[i]? = some v)
    (hc : v.vec.size ≤ v.vec.cap) (l : List Bool) (hl : v.length + l.length ≤ v.capacity w) (b b' : Bill)
    (he : runHistK S P vs (l.map (Op.push i)) (h, b) = .ok (vs', (h', b'))) :
    b'.req = b.req ∧ b'.acc ≤ b.acc + 3 * l.length := by
  have hw := hw
  unfold BV.capacity at hl
  have := p_pushes (P := P) (S := S) (i := i) (h := h) (j := 0) (a := 0) (r := 0)
    (fun j u a r => u.length = v.length + j ∧ (v.length + j ≤ v.vec.cap * w → u.vec.cap = v.vec.cap ∧ u.vec.size ≤ u.vec.cap ∧ r = 0 ∧ a ≤ 3 * j)) ?_ l hv
    ⟨rfl, fun _ => ⟨rfl, hc, rfl, Nat.le_refl _⟩⟩
  · obtain ⟨n, r, rfl, v', h1, h2, h3⟩ := this b _ _ _ he
    rw [Nat.zero_add] at h3
    obtain ⟨h4, h5, h6, h7⟩ := h3 hl
    exact ⟨by dsimp only; omega, by dsimp only; omega⟩
  · rintro j u x h a r ⟨h1, h2⟩
    refine p_pushBack_cases (fun g0 a' _ => ⟨by dsimp only; omega, fun g => ?_⟩) (fun g0 g1 a' _ => ⟨by dsimp only; omega, fun g => ?_⟩)
      (fun g0 g1 p a' _ => ⟨by dsimp only; omega, fun g => ?_⟩)
    · obtain ⟨h4, h5, h6, h7⟩ := h2 (by omega)
      exact ⟨h4, h5, by omega, by omega⟩
    · obtain ⟨h4, h5, h6, h7⟩ := h2 (by omega)
      exact ⟨h4, g1, by omega, by omega⟩
    · obtain ⟨h4, h5, h6, h7⟩ := h2 (by omega)
      have : u.vec.size = v.vec.cap := by omega
      rw [this] at g0
      omega

/-- If the call ends, it has asked for storage once if the new vector has words, and else not at all. -/
def AsksForWords (p : K w BV) (h : Heap w) : Prop :=
  ∀ v' h' b b', p (h, b) = .ok (v', (h', b')) → b'.req = b.req + if v'.vec.size = 0 then 0 else 1

/-- If the call on `v` ends, it has asked for storage once if the vector has been given new storage, and else not at all. -/
def AsksIfMoved (p : K w BV) (v : BV) (h : Heap w) : Prop :=
  ∀ v' h' b b', p (h, b) = .ok (v', (h', b')) → b'.req = b.req + if v'.vec.ptr = v.vec.ptr then 0 else 1

theorem asksForWords {p : K w BV} {h : Heap w} (hp : Pays p h fun v' _ _ r => r = if v'.vec.size = 0 then 0 else 1) : AsksForWords p h := by
  intro v' h' b b' e
  obtain ⟨n, r, rfl, hr⟩ := hp b _ _ _ e
  rw [← hr]
theorem asksIfMoved {p : K w BV} {v : BV} {h : Heap w} (hp : Pays p h fun v' _ _ r => r = if v'.vec.ptr = v.vec.ptr then 0 else 1) : AsksIfMoved p v h := by
  intro v' h' b b' e
  obtain ⟨n, r, rfl, hr⟩ := hp b _ _ _ e
  rw [← hr]

/-- C95: a constructor asks for storage once if the vector has words, and else not at all. (The constructor from a list of `bool` appends one by one.) -/
theorem C95_constructors (S : ShiftSem w) (P : Policy) (n : Nat) (x : Bool) (first last : BitIter w) (ws : List (BitVec w)) (l : List Bool) (s : List Char)
    (o : BV) (h : Heap w) :
    AsksForWords (ofCount P n) h ∧ AsksForWords (ofCountVal P n x) h ∧ AsksForWords (ofBits S P first last) h ∧ AsksForWords (ofWords P ws) h ∧
    AsksForWords (ofBoolRange S P l) h ∧ AsksForWords (ofString S P s) h ∧ AsksForWords (copyOf P o) h := by
  refine ⟨asksForWords ?_, asksForWords ?_, asksForWords ?_, asksForWords ?_, asksForWords ?_, asksForWords ?_, asksForWords ?_⟩
  · exact .bind (p_freshReq fun v' h' a => .pure rfl)
  · exact .bind (p_freshReq fun v' h' a => .pure rfl)
  · exact .bind (p_any fun _ _ _ => .bind (p_freshReq fun v' h' a => .bind (p_any fun _ _ _ => .bind (p_any fun _ _ _ => .pure (by simp)))))
  · exact .bind (p_freshReq fun v' h' a => .pure rfl)
  · exact .bind (p_freshReq fun v' h' a => .bind (p_any fun _ _ _ => .pure rfl))
  · exact .bind (p_freshReq fun v' h' a => .bind (p_any fun _ _ _ => .pure rfl))
  · refine .bind (.step fun v' h' e => .pure ?_)
    have hs : v'.size = o.vec.size := by unfold Vec.copyOf Vec.fresh at e; cases e; rfl
    dsimp only
    rw [hs]
    split_ifs <;> omega

/-- C95: a member asks for storage once if it gives the vector new storage, and else not at all: `reserve`, `shrink_to_fit`, `clear`, `push_back`, `pop_back`,
`insert`, `erase`, `resize`, assigning an element, and copy assignment. -/
theorem C95_members (S : ShiftSem w) (P : Policy) (v o : BV) (n : Nat) (x : Bool) (pos first last : BitIter w) (h : Heap w) (hv : v.vec.ptr < h.next) :
    AsksIfMoved (reserve P v n) v h ∧ AsksIfMoved (shrinkToFit P v) v h ∧ AsksIfMoved (clear v) v h ∧ AsksIfMoved (pushBack S P v x) v h ∧
    AsksIfMoved (popBack v) v h ∧ AsksIfMoved (Prod.fst <$> insert S P v pos x) v h ∧ AsksIfMoved (Prod.fst <$> insertN S P v pos n x) v h ∧
    AsksIfMoved (Prod.fst <$> insertRange S P v pos first last) v h ∧ AsksIfMoved (Prod.fst <$> erase S v pos) v h ∧
    AsksIfMoved (Prod.fst <$> eraseRange S P v first last) v h ∧ AsksIfMoved (resize P v n) v h ∧ AsksIfMoved (resizeVal S P v n x) v h ∧
    AsksIfMoved (set S v n x) v h ∧ AsksIfMoved (copyAssign P v o) v h := by
  have hv' : v.vec.ptr ≠ h.next := by omega
  refine ⟨asksIfMoved ?_, asksIfMoved ?_, asksIfMoved ?_, asksIfMoved ?_, asksIfMoved ?_, asksIfMoved ?_, asksIfMoved ?_, asksIfMoved ?_, asksIfMoved ?_,
    asksIfMoved ?_, asksIfMoved ?_, asksIfMoved ?_, asksIfMoved ?_, asksIfMoved ?_⟩
  · exact .bind ((Pays.ite (fun _ => .pure (by rw [if_pos rfl])) fun _ => p_movedRealloc hv').mono fun _ _ _ _ hr => .pure hr)
  · exact .bind ((Pays.ite (fun _ => p_movedRealloc hv') fun _ => .pure (by rw [if_pos rfl])).mono fun _ _ _ _ hr => .pure hr)
  · refine .bind (.step fun v' h' e => .pure ?_)
    unfold Vec.clear at e
    cases e
    rw [if_pos rfl]
  · exact .bind ((p_movedRoom hv').mono fun _ _ _ _ hr => .bind (p_any fun _ _ _ => .bind (p_any fun _ _ _ => .pure hr)))
  · exact .bind (p_movedDrop.mono fun _ _ _ _ hr => .pure hr)
  · exact .map (.bind (p_any fun _ m _ => .bind ((p_movedRoom (h := { h with mem := m }) hv').mono fun _ _ _ _ hr =>
      .bind (p_any fun _ _ _ => .bind (p_any fun _ _ _ => .bind (p_any fun _ _ _ => .pure (by simpa using hr)))))))
  · exact .map (.bind (p_any fun _ m _ => .ite (fun _ => .pure (by simp)) fun _ => .bind ((p_movedGrow (h := { h with mem := m }) hv').mono fun _ _ _ _ hr =>
      .bind (p_any fun _ _ _ => .bind (p_any fun _ _ _ => .pure (by simpa using hr))))))
  · exact .map (.bind (p_any fun _ m _ => .bind (p_any fun _ m _ => .ite (fun _ => .pure (by simp)) fun _ =>
      .bind ((p_movedGrow (h := { h with mem := m }) hv').mono fun _ _ _ _ hr =>
      .bind (p_any fun _ _ _ => .bind (p_any fun _ _ _ => .pure (by simpa using hr)))))))
  · exact .map (.bind (p_any fun _ m _ => .bind (p_movedDrop.mono fun _ _ _ _ hr => .pure (by simpa using hr))))
  · exact .map (.bind (p_any fun _ m _ => .bind (p_any fun _ m _ => .ite (fun _ => .pure (by simp)) fun _ => .bind (p_any fun _ m _ =>
      .bind ((p_movedResize (h := { h with mem := m }) hv').mono fun _ _ _ _ hr => .pure (by simpa using hr))))))
  · exact .bind ((p_movedResize hv').mono fun _ _ _ _ hr => .pure hr)
  · exact .bind ((p_movedResize hv').mono fun _ _ _ _ hr => .ite (fun _ => .bind (p_any fun _ _ _ => .pure hr)) fun _ => .pure hr)
  · exact .bind (p_any fun _ _ _ => .bind (p_any fun _ _ _ => .pure (by simp)))
  · refine .bind (Pays.mono (Q := fun v' _ _ r => r = if v'.ptr = v.vec.ptr then 0 else 1) (.ite (fun hc => .step fun v' h' e => ?_) fun hc => .bind (.step fun u h' e => .bind (.step fun _ h'' e' => .pure ?_))) fun _ _ _ _ hr => .pure hr)
    · unfold Vec.copyAssign at e
      rw [if_pos hc] at e
      cases e
      rw [if_pos rfl]
    · unfold Vec.copyOf Vec.fresh at e
      cases e
      dsimp only
      rw [if_pos (by omega), if_neg (by omega)]
/-- Storage grows to exactly what is needed. -/
def Tight (P : Policy) : Prop := ∀ cap need, P.grow cap need = need

/-- C95: the growth of the storage matters: if storage only grows to what is needed, appending to an empty vector costs `s (s - 1)` accesses at least,
where `s` is the number of words in the end. -/
theorem C95_tight (hw : 0 < w) (S : ShiftSem w) (P : Policy) (hP : Tight P) (h h' : Heap w) (vs vs' : List BV) (i : Nat)
    (hv : vs[i]? = some BV.default) (l : List Bool) (b b' : Bill) (he : runHistK S P vs (l.map (Op.push i)) (h, b) = .ok (vs', (h', b'))) :
    b.acc + wordsFor w l.length * (wordsFor w l.length - 1) ≤ b'.acc ∧ b'.req = b.req + wordsFor w l.length := by
  have := p_pushes (P := P) (S := S) (i := i) (h := h) (j := 0) (a := 0) (r := 0)
    (fun j u a r => u.vec.cap = u.vec.size ∧ u.length = j ∧ u.vec.size = wordsFor w j ∧ u.vec.size * (u.vec.size - 1) ≤ a ∧ r = u.vec.size) ?_ l hv
    ⟨rfl, rfl, (wordsFor_zero hw).symm, Nat.le_refl _, rfl⟩
  · obtain ⟨n, r, rfl, v', h1, h2, h3, h4, h5, h6⟩ := this b _ _ _ he
    rw [Nat.zero_add] at h4 h5 h6
    rw [← h4]
    exact ⟨by dsimp only; omega, by dsimp only; omega⟩
  · rintro j u x h a r ⟨h1, h2, h3, h4, h5⟩
    have hs := wordsFor_succ hw j
    have hg := wordsFor_ge hw j
    rw [← h3] at hs hg
    refine p_pushBack_cases (fun g0 a' _ => ?_) (fun g0 g1 a' _ => absurd g1 (by omega)) (fun g0 g1 p a' _ => ?_)
    · rw [Nat.sub_eq_zero_of_le (by omega), wordsFor_zero hw] at hs
      exact ⟨h1, by dsimp only; omega, hs, by dsimp only; omega, h5⟩
    · rw [g0, h2, Nat.add_sub_cancel_left, wordsFor_one hw] at hs
      refine ⟨hP _ _, by dsimp only; omega, hs, ?_, by dsimp only; omega⟩
      dsimp only
      rw [Nat.add_sub_cancel, Nat.succ_mul]
      rcases hz : u.vec.size with _ | z
      · omega
      · rw [hz] at h4
        rw [Nat.add_sub_cancel] at h4
        have : (z + 1) * (z + 1) = (z + 1) * z + (z + 1) := Nat.mul_succ _ _
        omega

/-! ### The hypotheses can be met -/

/-- Doubling grows by the whole, hence by every part. -/
theorem grows_doubling (k : Nat) (hk : 0 < k) : Grows k doubling := by
  refine ⟨hk, fun cap need => ?_⟩
  have : cap / k ≤ cap := Nat.div_le_self cap k
  show _ ≤ max need (2 * cap)
  omega

/-- Growth by half. -/
def byHalf : Policy where
  grow cap need := max need (cap + cap / 2)
  grow_ok _ _ := Nat.le_max_left _ _
  alloc n := n
  alloc_ok _ := Nat.le_refl _
  shrink _ _ := true

/-- Growth to what is needed. -/
def exactly : Policy where
  grow _ need := need
  grow_ok _ _ := Nat.le_refl _
  alloc n := n
  alloc_ok _ := Nat.le_refl _
  shrink _ _ := true

example : Grows 2 byHalf := ⟨by decide, fun cap need => Nat.le_max_right _ _⟩
example : Tight exactly := fun _ _ => rfl
/-- Growth to what is needed is no growth by a part. -/
example (k : Nat) : ¬ Grows k exactly := fun h => by
  have := h.2 k k
  rw [Nat.div_self h.1] at this
  exact Nat.not_succ_le_self k this

/-- A history within the limits on the vector of eleven elements. -/
example : Grows 1 doubling ∧ EnvOk exH [exV] [exL] ∧ Along (fun ls op => op.Pre ls ∧ op.Lim (.strict 8 (Nat.le_refl 8)) ls)
    [.push 0 true, .insertN 0 3 20 false, .newCopy 0, .eraseRange 1 2 9] [exL] :=
  ⟨grows_doubling 1 (by decide), exEnv, ⟨show 0 < 1 by decide, trivial, .inl trivial⟩,
    ⟨⟨show 0 < 1 by decide, by decide⟩, show 12 + 20 ≤ 2 ^ 24 by decide, .inl (show ¬ (3 % 8 = 0 ∧ _) by decide)⟩, ⟨show 0 < 1 by decide, trivial, .inl trivial⟩,
    ⟨⟨show 1 < 2 by decide, by decide, by decide⟩, show 32 < 2 ^ 32 by decide, .inl (show ¬ (2 % 8 = 0 ∧ _) by decide)⟩, trivial⟩

/-- Its price: 2 for the element that fits in the second word, `5 * 2 + 3 + 2 + 19` for twenty elements, `4 * 4` for the copy, `3 * 2 + 17` for the erased
range. -/
example : priceHist 1 ([.push 0 true, .insertN 0 3 20 false, .newCopy 0, .eraseRange 1 2 9] : List (Op 8)) (shapeOf [exV]) = 2 + 34 + 16 + 23 := by decide

/-- Seventeen elements pushed on an empty vector, and the bill: three words, three requests, two accesses for each element, one for each new word and two
for each word that is moved, of which there are one and two. -/
example : ((runHistK (.strict 8 (Nat.le_refl 8)) doubling [BV.default] ((List.replicate 17 true).map (Op.push 0)) (exH, ⟨0, 0⟩)).toOption.map
    fun r => (r.2.2.acc, r.2.2.req)) = some (2 * 17 + 3 + 2 * (1 + 2), 3) := by decide +kernel

/-- The vector of eleven elements has its storage below the next free address; one element more asks for nothing, ten more ask once. -/
example : exV.vec.ptr < exH.next ∧
    ((Billed.pushBack (.strict 8 (Nat.le_refl 8)) doubling exV true (exH, ⟨0, 0⟩)).toOption.map fun r => (r.1.vec.ptr, r.2.2.req)) = some (0, 0) ∧
    ((Billed.resize doubling exV 21 (exH, ⟨0, 0⟩)).toOption.map fun r => (r.1.vec.ptr, r.2.2.req)) = some (3, 1) := by decide +kernel
/-- No words, no request. -/
example : ((Billed.ofCount doubling 0 (exH, ⟨0, 0⟩)).toOption.map fun r => r.2.2.req) = some 0 ∧
    ((Billed.ofCount doubling 20 (exH, ⟨0, 0⟩)).toOption.map fun r => (r.1.vec.size, r.2.2.req)) = some (3, 1) := by decide +kernel

end BitLib
