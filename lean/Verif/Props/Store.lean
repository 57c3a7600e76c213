import Verif.Lemmas.Acts
/-
C87: programs that also call `resize` are described exactly by all bits of the words of their vectors.
-/
namespace BitLib
variable {w : Nat}
open Store

/-! ### Members -/

/-- C87, members: a valid call within the limits has no undefined behaviour and changes the words as `Op.store` says. -/
theorem C87_member (hw : 0 < w) (S : ShiftSem w) (P : Policy) (h : Heap w) (vs : List BV) (ss : List Store) (op : Op w)
    (e : EnvAll h vs ss) (hpre : op.Pre (ss.map Store.elems)) (hlim : op.Lim S (ss.map Store.elems)) :
    ∃ vs' h', op.exec S P vs h = .ok (vs', h') ∧ EnvAll h' vs' (op.store ss) := by
  obtain ⟨hsz, hfw⟩ := hlim
  have hml : (ss.map Store.elems).length = ss.length := List.length_map _
  have hel : ∀ i, i < ss.length → (Op.at' (ss.map Store.elems) i).length = (Store.at' ss i).n := by
    intro i hi
    obtain ⟨v, _, _, r⟩ := e.get hi
    rw [at'_map_elems, r.elemsLength]
  cases op with
  | newEmpty => exact wpV_newVecW e (wpV_pure (holdsAll_default e.wf))
  | newCount n => exact wpV_newVecW e (wpV_ofCountValW (b := false) hw e.wf hsz fun _ _ s r => ⟨s, r⟩)
  | newCountVal n x => exact wpV_newVecW e (wpV_ofCountValW hw e.wf hsz fun _ _ s r => ⟨s, r⟩)
  | newString s => exact wpV_newVecW e (wpV_ofStringW S hw e.wf fun _ _ s r => ⟨s, r⟩)
  | newBoolRange l => exact wpV_newVecW e (wpV_ofBoolRangeW S hw e.wf fun _ _ s r => ⟨s, r⟩)
  | newBoolList l => exact wpV_newVecW e (wpV_ofBoolListW S hw e.wf fun _ _ s r => ⟨s, r⟩)
  | newWords l => exact wpV_newVecW e (wpV_ofWordsW hw e.wf fun _ _ s r => ⟨s, r⟩)
  | newBits j a b =>
    obtain ⟨hj, hab, hb⟩ := hpre
    rw [hml] at hj
    rw [hel j hj] at hb
    obtain ⟨o, h1, h2, r⟩ := e.get hj
    have hfit := r.fit
    unfold Op.exec
    dsimp only
    rw [h1]
    exact wpV_newVecW e (wpV_ofBitsW S hw e.wf (r.rep.holds (IsPos.begin_add hw _ a) (IsPos.begin_add hw _ b) hab (by omega)) fun _ _ s r => ⟨s, r⟩)
  | newCopy j =>
    change j < (ss.map Store.elems).length at hpre
    rw [hml] at hpre
    obtain ⟨o, h1, h2, r⟩ := e.get hpre
    unfold Op.exec
    dsimp only
    rw [h1]
    exact wpV_newVecW e (wpV_copyOfW hw e.wf r fun _ _ s r => ⟨s, r⟩)
  | push i x =>
    change i < (ss.map Store.elems).length at hpre
    exact wpV_onVecW e (hml ▸ hpre) fun v r => wpV_pushW S hw e.wf r fun _ _ s r => ⟨⟨_, s, .inl rfl⟩, r⟩
  | pop i =>
    obtain ⟨hi, hne⟩ := hpre
    rw [hml] at hi
    have := List.length_pos_iff.2 hne
    rw [hel i hi] at this
    exact wpV_onVecW e hi fun v r => wpV_popW hw e.wf r this fun _ _ s r => ⟨⟨_, s, .inl rfl⟩, r⟩
  | insert i d x =>
    obtain ⟨hi, hd⟩ := hpre
    rw [hml] at hi
    unfold Op.NoFullWord at hfw
    dsimp only at hfw
    rw [hel i hi] at hd hfw
    exact wpV_onVecW e hi fun v r => wpV_map (wpV_insertW S hw e.wf r (IsPos.begin_add hw v d) hd hfw
      fun _ _ _ s r => ⟨⟨_, s, .inl rfl⟩, r⟩)
  | insertN i d n x =>
    obtain ⟨hi, hd⟩ := hpre
    rw [hml] at hi
    unfold Op.NoFullWord at hfw
    unfold Op.SizeLim at hsz
    dsimp only at hfw hsz
    rw [hel i hi] at hd hfw hsz
    exact wpV_onVecW e hi fun v r => wpV_map (wpV_insertNW S hw e.wf r (IsPos.begin_add hw v d) hd hsz hfw
      fun _ _ _ s r => ⟨⟨_, s, .inl rfl⟩, r⟩)
  | insertRange i d j a b =>
    obtain ⟨hi, hd, hj, hij, hab, hb⟩ := hpre
    rw [hml] at hi hj
    unfold Op.NoFullWord at hfw
    unfold Op.SizeLim at hsz
    dsimp only at hfw hsz
    rw [hel i hi] at hd hfw hsz
    rw [hel j hj] at hb
    obtain ⟨v, h1, h2, r⟩ := e.get hi
    obtain ⟨o, h3, h4, ro⟩ := e.get hj
    have hfit := ro.fit
    have hlen := slice_length (Store.at' ss j).bits (a := a) (b := b) (by omega)
    have hout : Outside v.vec ((o.begin : BitIter w).add (a : Int)) ((o.begin : BitIter w).add (b : Int)) :=
      Rep.outside (v := v) (o := ⟨o.vec, o.vec.size * w⟩) hw ro.rep (e.sep i j v o h1 h3 hij) (by omega)
    unfold Op.exec
    dsimp only
    unfold onVec2
    rw [h1, h3]
    show wpV (_ >>= _) h _
    rw [wpV_bind]
    refine wpV_map (wpV_insertRangeW S hw e.wf r (IsPos.begin_add hw v d) hd
      (ro.rep.holds (IsPos.begin_add hw _ a) (IsPos.begin_add hw _ b) hab (by omega)) hout (by rw [hlen]; exact hsz) (by rw [hlen]; exact hfw) ?_)
    intro v' it h' s r'
    exact wpV_pure (e.update h1 s (.inl rfl) r')
  | erase i d =>
    obtain ⟨hi, hd⟩ := hpre
    rw [hml] at hi
    unfold Op.NoFullWord at hfw
    dsimp only at hfw
    rw [hel i hi] at hd hfw
    exact wpV_onVecW e hi fun v r => wpV_map (wpV_eraseW S hw e.wf r (IsPos.begin_add hw v d) hd hfw
      fun _ _ _ s r => ⟨⟨_, s, .inl rfl⟩, r⟩)
  | eraseRange i a b =>
    obtain ⟨hi, hab, hb⟩ := hpre
    rw [hml] at hi
    unfold Op.NoFullWord at hfw
    unfold Op.SizeLim at hsz
    dsimp only at hfw hsz
    rw [hel i hi] at hb hfw hsz
    exact wpV_onVecW e hi fun v r => wpV_map (wpV_eraseRangeW S hw e.wf r (IsPos.begin_add hw v a) (IsPos.begin_add hw v b) hab hb hsz hfw
      fun _ _ _ s r => ⟨⟨_, s, .inl rfl⟩, r⟩)
  | clear i =>
    change i < (ss.map Store.elems).length at hpre
    exact wpV_onVecW e (hml ▸ hpre) fun v r => wpV_clearW hw e.wf r fun _ _ s r => ⟨⟨_, s, .inl rfl⟩, r⟩
  | set i k x =>
    obtain ⟨hi, hk⟩ := hpre
    rw [hml] at hi
    rw [hel i hi] at hk
    exact wpV_onVecW e hi fun v r => wpV_setW S hw e.wf r hk fun _ s r => ⟨⟨_, s, .inl rfl⟩, r⟩
  | copyAssign i j =>
    obtain ⟨hi, hj⟩ := hpre
    rw [hml] at hi hj
    obtain ⟨v, h1, h2, r⟩ := e.get hi
    obtain ⟨o, h3, h4, ro⟩ := e.get hj
    unfold Op.exec
    dsimp only
    unfold onVec2
    rw [h1, h3]
    show wpV (_ >>= _) h _
    rw [wpV_bind]
    refine wpV_copyAssignW hw e.wf r ro ?_
    intro v' h' s r'
    exact wpV_pure (e.update h1 s (.inl rfl) r')
  | moveAssign i j =>
    obtain ⟨hi, hj, hij⟩ := hpre
    rw [hml] at hi hj
    obtain ⟨v, h1, h2, r⟩ := e.get hi
    obtain ⟨o, h3, h4, ro⟩ := e.get hj
    obtain ⟨vs', h', e1, k⟩ := C35_step_partial hw S P h _ _ (Op.moveAssign i j : Op w) e.env
      ⟨by simpa using hi, by simpa using hj, hij⟩ ⟨trivial, .inl trivial⟩
    have e0 : (Op.moveAssign i j : Op w).exec S P vs h =
        .ok ((vs.set i o).set j BV.default, { h with mem := h.mem.place v.vec.ptr v.vec.cap fun _ => none }) := by
      unfold Op.exec
      dsimp only
      rw [h1, h3]
      rfl
    have e2 : (Op.moveAssign i j : Op w).exec S P (vs.map (BV.full w)) h =
        .ok (((vs.map (BV.full w)).set i (o.full w)).set j BV.default, { h with mem := h.mem.place v.vec.ptr v.vec.cap fun _ => none }) := by
      unfold Op.exec
      dsimp only
      rw [List.getElem?_map, List.getElem?_map, h1, h3]
      rfl
    rw [e2] at e1
    cases e1
    refine ⟨_, _, e0, EnvAll.of (ss := (ss.set i (Store.at' ss j)).set j ⟨[], 0⟩) ?_ ?_⟩
    · rw [List.map_set, List.map_set, List.map_set, List.map_set, ← at'_map_bits ss j]
      have : (BV.default.full w) = BV.default := by unfold BV.full BV.default Vec.empty; simp
      rw [this]
      exact k
    · intro k x t hx ht
      rw [List.getElem?_set] at hx ht
      by_cases hkj : j = k
      · rw [if_pos hkj] at hx ht
        split_ifs at hx ht
        cases hx; cases ht
        exact ⟨rfl, Nat.le_refl _⟩
      · rw [if_neg hkj, List.getElem?_set] at hx ht
        by_cases hki : i = k
        · rw [if_pos hki] at hx ht
          split_ifs at hx ht
          cases hx; cases ht
          exact ⟨ro.len, ro.fit⟩
        · rw [if_neg hki] at hx ht
          have := e.holds k x t hx ht
          exact ⟨this.len, this.fit⟩
  | reserve i n =>
    change i < (ss.map Store.elems).length at hpre
    have := wpV_onVecW e (hml ▸ hpre) (f := fun v => v.reserve P n) (s' := Store.at' ss i)
      fun v r => wpV_reserveW hw e.wf r fun _ _ s r => ⟨⟨_, s, .inl rfl⟩, r⟩
    rw [stores_set_at'] at this
    exact this
  | shrinkToFit i =>
    change i < (ss.map Store.elems).length at hpre
    have := wpV_onVecW e (hml ▸ hpre) (f := fun v => v.shrinkToFit P) (s' := Store.at' ss i)
      fun v r => wpV_shrinkToFitW hw e.wf r fun _ _ s r => ⟨⟨_, s, .inl rfl⟩, r⟩
    rw [stores_set_at'] at this
    exact this
  | shrink i n =>
    obtain ⟨hi, _⟩ := hpre
    exact wpV_onVecW e (hml ▸ hi) fun v r => wpV_resizeS hw e.wf r hsz fun _ _ s r => ⟨⟨_, s, .inl rfl⟩, r⟩
  | destroy i =>
    change i < (ss.map Store.elems).length at hpre
    exact wpV_onVecW e (hml ▸ hpre) fun v r => wpV_destroyW hw e.wf fun _ s r => ⟨⟨_, s, .inr rfl⟩, r⟩

/-! ### Algorithms -/

/-- C87, algorithms: they do to all bits of the words what they do to the elements. -/
theorem C87_alg (hw : 0 < w) (S : ShiftSem w) (P : Policy) (h : Heap w) (vs : List BV) (ss : List Store) (c : Call w) (hc : c.Algo)
    (e : EnvAll h vs ss) (hpre : c.Pre (ss.map Store.elems)) (hlim : (Act.call c).Lim S ss) :
    ∃ ans h' ss', c.exec S P vs h = .ok ((vs, ans), h') ∧ (Act.call c).Spec ss ss' ans ∧ EnvAll h' vs ss' := by
  obtain ⟨vs', ans, h', ls', e1, s1, k1⟩ := C65_step_partial hw S P h _ _ c e.env (pre_bits hc hpre) (lim_bits S hc hlim)
  obtain ⟨e2, e3⟩ := (Call.alike S P vs c hc).ok e1
  dsimp only at e2 e3
  subst e2
  have hl : ls'.length = (ss.map Store.n).length := by
    have h1 := k1.len
    have h2 := e.len
    simp only [List.length_map] at h1 ⊢
    omega
  refine ⟨ans, h', List.zipWith Store.mk ls' (ss.map Store.n), e3, (spec_alg hc).2 ⟨by rw [zip_bits hl]; exact s1, zip_n hl⟩, ?_⟩
  refine EnvAll.of (by rw [zip_bits hl]; exact k1) fun i v s hv hs => ?_
  rw [List.getElem?_zipWith] at hs
  cases hb : ls'[i]? with
  | none => rw [hb] at hs; cases hs
  | some b =>
    rw [hb, List.getElem?_map] at hs
    cases hn : ss[i]? with
    | none => rw [hn] at hs; cases hs
    | some t =>
      rw [hn] at hs
      cases hs
      have r0 := e.holds i v t hv hn
      have r1 := k1.rep i (v.full w) b (by rw [List.getElem?_map, hv]; rfl) hb
      have l0 := r0.rep.len
      have l1 := r1.len
      have l2 := r0.fit
      dsimp only [BV.full] at l0 l1 ⊢
      exact ⟨r0.len, by omega⟩

/-- C87: no algorithm changes a bit behind the elements, nor the number of bits. -/
theorem C87_algorithms_keep_rest (hw : 0 < w) {h : Heap w} {vs : List BV} {ss : List Store} (e : EnvAll h vs ss) {c : Call w} (hc : c.Algo)
    (hpre : c.Pre (ss.map Store.elems)) {ss' : List Store} {ans : Ans} (s : (Act.call c).Spec ss ss' ans) (j k : Nat)
    (hk : (Store.at' ss j).n ≤ k) : (Store.at' ss' j).bits[k]? = (Store.at' ss j).bits[k]? := by
  obtain ⟨s, -⟩ := (spec_alg hc).1 s
  rw [← at'_map_bits, ← at'_map_bits]
  have hml : (ss.map Store.elems).length = ss.length := List.length_map _
  have hml2 : (ss.map Store.bits).length = ss.length := List.length_map _
  have fit : ∀ i, i < (ss.map Store.elems).length → (Store.at' ss i).n ≤ (Op.at' (ss.map Store.bits) i).length := by
    intro i hi
    obtain ⟨v, _, _, r⟩ := e.get (i := i) (by omega)
    rw [at'_map_bits]
    exact r.fit
  have hel : ∀ i, i < (ss.map Store.elems).length → (Op.at' (ss.map Store.elems) i).length = (Store.at' ss i).n := by
    intro i hi
    obtain ⟨v, _, _, r⟩ := e.get (i := i) (by omega)
    rw [at'_map_elems, r.elemsLength]
  have part : ∀ {i a b : Nat}, Call.Part (ss.map Store.elems) i a b → i < (ss.map Store.bits).length ∧ a ≤ b ∧ b ≤ (Store.at' ss i).n ∧
      (Store.at' ss i).n ≤ (Op.at' (ss.map Store.bits) i).length := by
    rintro i a b ⟨h1, h2, h3⟩
    rw [hel i h1] at h3
    exact ⟨by omega, h2, h3, fit i h1⟩
  have keep := fun {i d : Nat} {xs : List Bool} hi hd hn =>
    keep_splice (ls := ss.map Store.bits) (ns := fun i => (Store.at' ss i).n) (i := i) (d := d) (xs := xs) hi hd hn j k hk
  have le := slice_length_le
  cases c with
  | vec op => exact hc.elim
  | size i => exact hc.elim
  | debugString i => exact hc.elim
  | copy j2 a b i d =>
    obtain ⟨p1, p2, -⟩ := hpre
    obtain ⟨q1, q2, q3, q4⟩ := part p2
    have := le (Op.at' (ss.map Store.bits) j2) a b
    rw [s.1]
    exact keep q1 (by omega) q4
  | move j2 a b i d =>
    obtain ⟨p1, p2, -⟩ := hpre
    obtain ⟨q1, q2, q3, q4⟩ := part p2
    have := le (Op.at' (ss.map Store.bits) j2) a b
    rw [s.1]
    exact keep q1 (by omega) q4
  | copyBackward j2 a b i d =>
    obtain ⟨p1, p2, -⟩ := hpre
    obtain ⟨q1, q2, q3, q4⟩ := part p2
    have := le (Op.at' (ss.map Store.bits) j2) a b
    rw [s.1]
    exact keep q1 (by omega) q4
  | fill i a b x =>
    obtain ⟨q1, q2, q3, q4⟩ := part hpre
    rw [s.1]
    exact keep q1 (by rw [List.length_replicate]; omega) q4
  | reverse i a b =>
    obtain ⟨q1, q2, q3, q4⟩ := part hpre
    have := le (Op.at' (ss.map Store.bits) i) a b
    rw [s.1]
    exact keep q1 (by rw [List.length_reverse]; omega) q4
  | rotate i a m b =>
    obtain ⟨p1, h1, h2⟩ := hpre
    obtain ⟨q1, q2, q3, q4⟩ := part p1
    have l1 := le (Op.at' (ss.map Store.bits) i) a m
    have l2 := le (Op.at' (ss.map Store.bits) i) m b
    rw [s.1]
    exact keep q1 (by rw [List.length_append]; omega) q4
  | shiftLeft i a b n =>
    obtain ⟨q1, q2, q3, q4⟩ := part hpre
    simp only [Call.Spec] at s
    split_ifs at s with h0
    · have l1 := le (Op.at' (ss.map Store.bits) i) (a + n) b
      have l2 := vacatedL_length (w := w) (Op.at' (ss.map Store.bits) i) (a := a) (b := b) (n := n) (by omega) (by omega)
      rw [s.1]
      exact keep q1 (by rw [List.length_append]; omega) q4
    · rw [s.1]
    · rw [s.1]
  | shiftRight i a b n =>
    obtain ⟨q1, q2, q3, q4⟩ := part hpre
    simp only [Call.Spec] at s
    split_ifs at s with h0
    · have l1 := le (Op.at' (ss.map Store.bits) i) a (b - n)
      have l2 := vacatedR_length (w := w) hw (Op.at' (ss.map Store.bits) i) (a := a) (b := b) (n := n) (by omega) (by omega)
      rw [s.1]
      exact keep q1 (by rw [List.length_append]; omega) q4
    · rw [s.1]
    · rw [s.1]
  | swapRanges i a b j2 m =>
    obtain ⟨p1, p2, hdis⟩ := hpre
    obtain ⟨q1, q2, q3, q4⟩ := part p1
    obtain ⟨r1, r2, r3, r4⟩ := part p2
    have l1 := le (Op.at' (ss.map Store.bits) j2) m (m + (b - a))
    have l2 := le (Op.at' (ss.map Store.bits) i) a b
    obtain ⟨s, -⟩ := s
    rw [s]
    have k1 := keep (i := i) (d := a) (xs := slice (Op.at' (ss.map Store.bits) j2) m (m + (b - a))) q1 (by omega) q4
    rw [← k1]
    refine keep_splice (ns := fun i => (Store.at' ss i).n) (by rw [List.length_set]; exact r1) (by omega) ?_ j k hk
    by_cases hij : i = j2
    · subst hij
      have : Op.at' ((ss.map Store.bits).set i (splice (Op.at' (ss.map Store.bits) i) a (slice (Op.at' (ss.map Store.bits) i) m (m + (b - a))))) i =
          splice (Op.at' (ss.map Store.bits) i) a (slice (Op.at' (ss.map Store.bits) i) m (m + (b - a))) := by
        show (_)[i]?.getD _ = _
        rw [List.getElem?_set, if_pos rfl, if_pos q1]; rfl
      rw [this, splice_length _ _ (by omega)]
      exact q4
    · have : Op.at' ((ss.map Store.bits).set i (splice (Op.at' (ss.map Store.bits) i) a (slice (Op.at' (ss.map Store.bits) j2) m (m + (b - a))))) j2 =
          Op.at' (ss.map Store.bits) j2 := by
        show (_)[j2]?.getD _ = (_)[j2]?.getD _
        rw [List.getElem?_set, if_neg hij]
      rw [this]
      exact r4
  | transform op f j2 a b i d =>
    obtain ⟨-, p1, p2, -⟩ := hpre
    obtain ⟨q1, q2, q3, q4⟩ := part p2
    have := le (Op.at' (ss.map Store.bits) j2) a b
    rw [s.1]
    exact keep q1 (by rw [List.length_map]; omega) q4
  | transform2 op f j2 a b j3 c i d =>
    obtain ⟨-, p1, p3, p2, -⟩ := hpre
    obtain ⟨q1, q2, q3, q4⟩ := part p2
    have := le (Op.at' (ss.map Store.bits) j2) a b
    rw [s.1]
    exact keep q1 (by rw [List.length_zipWith]; omega) q4
  | find i a b x => rw [s.1]
  | count i a b x => rw [s.1]
  | equal i a b j c => rw [s.1]
  | get i k => rw [s.1]

/-! ### Single calls -/

/-- C87, one call: a valid call within the limits has no undefined behaviour, changes the words as `Act.Spec` says, and answers what it says. -/
theorem C87_step (hw : 0 < w) (S : ShiftSem w) (P : Policy) (h : Heap w) (vs : List BV) (ss : List Store) (a : Act w)
    (e : EnvAll h vs ss) (hpre : a.Pre ss) (hlim : a.Lim S ss) :
    ∃ vs' ans h' ss', a.exec S P vs h = .ok ((vs', ans), h') ∧ a.Spec ss ss' ans ∧ EnvAll h' vs' ss' := by
  have alg : ∀ c : Call w, a = .call c → c.Algo →
      ∃ vs' ans h' ss', a.exec S P vs h = .ok ((vs', ans), h') ∧ a.Spec ss ss' ans ∧ EnvAll h' vs' ss' := by
    rintro c rfl hc
    obtain ⟨ans, h', ss', e1, s1, k1⟩ := C87_alg hw S P h vs ss c hc e hpre hlim
    exact ⟨vs, ans, h', ss', e1, s1, k1⟩
  have unit : ∀ {x : V w (List BV)} {ss' : List Store}, wpV x h (fun vs' h' => EnvAll h' vs' ss') →
      ∃ vs' h', (x >>= fun vs' => pure (vs', Ans.unit)) h = .ok ((vs', Ans.unit), h') ∧ EnvAll h' vs' ss' := by
    rintro x ss' ⟨vs', h', e1, k1⟩
    refine ⟨vs', h', ?_, k1⟩
    show Except.bind (x h) _ = _
    rw [e1]; rfl
  cases a with
  | resize i n =>
    obtain ⟨vs', h', e1, k1⟩ := unit (wpV_onVecW e (f := fun v => v.resize P n) hpre fun v r =>
      wpV_resizeS hw e.wf r hlim fun _ _ s r => ⟨⟨_, s, .inl rfl⟩, r⟩)
    exact ⟨vs', .unit, h', _, e1, ⟨rfl, rfl⟩, k1⟩
  | resizeVal i n x =>
    obtain ⟨vs', h', e1, k1⟩ := unit (wpV_onVecW e (f := fun v => v.resizeVal S P n x) hpre fun v r =>
      wpV_resizeValS S hw e.wf r hlim fun _ _ s r => ⟨⟨_, s, .inl rfl⟩, r⟩)
    exact ⟨vs', .unit, h', _, e1, ⟨rfl, rfl⟩, k1⟩
  | call c =>
    cases c with
    | vec op =>
      obtain ⟨vs', h', e1, k1⟩ := C87_member hw S P h vs ss op e hpre hlim
      obtain ⟨vs', h', e1, k1⟩ := unit (x := op.exec S P vs) ⟨vs', h', e1, k1⟩
      exact ⟨vs', .unit, h', _, e1, ⟨rfl, rfl⟩, k1⟩
    | size i =>
      obtain ⟨v, h1, h2, r⟩ := e.get (i := i) (by simpa [Act.Pre, Call.Pre] using hpre)
      refine ⟨vs, .num ((Store.at' ss i).n : Int), h, ss, ?_, ⟨rfl, rfl⟩, e⟩
      show withVec vs i _ h = _
      unfold withVec
      rw [h1]
      show Except.ok ((vs, Ans.num (v.length : Int)), h) = _
      rw [r.len]
    | debugString i =>
      obtain ⟨v, h1, h2, r⟩ := e.get (i := i) (by simpa [Act.Pre, Call.Pre] using hpre)
      refine ⟨vs, .text (grouped w 0 (Store.at' ss i).elems), h, ss, ?_, ⟨rfl, rfl⟩, e⟩
      show withVec vs i _ h = _
      unfold withVec
      rw [h1]
      change (Op.at' (ss.map Store.elems) i).length < 2 ^ 31 at hlim
      rw [at'_map_elems] at hlim
      show Except.bind (v.debugString S h) _ = _
      rw [C37_debug_string_partial hw S h v _ r.elems hlim]; rfl
    | _ => exact alg _ rfl trivial

/-- The same call, on the elements: for the calls of C65 what happens to the elements is as in C65. -/
theorem C87_elements (hw : 0 < w) (S : ShiftSem w) (P : Policy) (h : Heap w) (vs : List BV) (ss : List Store) (c : Call w)
    (e : EnvAll h vs ss) (hpre : c.Pre (ss.map Store.elems)) (hlim2 : c.Lim S (ss.map Store.elems)) :
    ∃ vs' ans h' ss', c.exec S P vs h = .ok ((vs', ans), h') ∧ (Act.call c).Spec ss ss' ans ∧
      c.Spec (ss.map Store.elems) (ss'.map Store.elems) ans ∧ EnvAll h' vs' ss' := by
  obtain ⟨vs', ans, h', ss', e1, s1, k1⟩ := C87_step hw S P h vs ss (.call c) e hpre (e.lim S hpre hlim2)
  obtain ⟨vs2, ans2, h2, ls2, e2, s2, k2⟩ := C65_step_partial hw S P h vs _ c e.elems hpre hlim2
  change c.exec S P vs h = _ at e1
  rw [e1] at e2
  cases e2
  refine ⟨vs', ans, h', ss', e1, s1, ?_, k1⟩
  have : ss'.map Store.elems = ls2 := by
    have l1 := k1.elems.len
    have l2 := k2.len
    refine List.ext_getElem (by omega) fun i h1 h2 => ?_
    have hv : vs'[i]? = some (vs'[i]'(by omega)) := List.getElem?_eq_getElem _
    exact Rep.unique (k1.elems.rep i _ _ hv (List.getElem?_eq_getElem h1)) (k2.rep i _ _ hv (List.getElem?_eq_getElem h2))
  rw [this]
  exact s2

/-! ### Programs -/

/-- C87: a program of valid calls within the limits, `resize` among them, runs without undefined behaviour, and the bits of the words of its
vectors and its answers are those of the specification, which allows one result only. -/
theorem C87_program (hw : 0 < w) (S : ShiftSem w) (P : Policy) (h : Heap w) (vs : List BV) (ss : List Store) (as : List (Act w))
    (e : EnvAll h vs ss) (hv : AlongS (fun ss a => a.Pre ss ∧ a.Lim S ss) as ss) :
    ∃ vs' xs h' ss', runActs S P vs as h = .ok ((vs', xs), h') ∧ StoreRun ss as ss' xs ∧ EnvAll h' vs' ss' ∧
      ∀ ss2 xs2, StoreRun ss as ss2 xs2 → ss2 = ss' ∧ xs2 = xs := by
  suffices hh : ∃ vs' xs h' ss', runActs S P vs as h = .ok ((vs', xs), h') ∧ StoreRun ss as ss' xs ∧ EnvAll h' vs' ss' by
    obtain ⟨vs', xs, h', ss', e1, s1, k1⟩ := hh
    exact ⟨vs', xs, h', ss', e1, s1, k1, fun _ _ s2 => s2.unique s1⟩
  induction as generalizing h vs ss with
  | nil => exact ⟨vs, [], h, ss, rfl, .nil ss, e⟩
  | cons a as ih =>
    obtain ⟨vs1, x, h1, s1, e1, p1, k1⟩ := C87_step hw S P h vs ss a e hv.1.1 hv.1.2
    obtain ⟨vs2, xs, h2, s2, e2, p2, k2⟩ := ih h1 vs1 s1 k1 (hv.2 s1 x p1)
    refine ⟨vs2, x :: xs, h2, s2, ?_, .cons p1 p2, k2⟩
    show (Except.bind (a.exec S P vs h) fun p => _) = _
    rw [e1]
    show (Except.bind (runActs S P vs1 as h1) fun p => _) = _
    rw [e2]
    rfl

/-- C87: what a program observes does not depend on how the compiler treats shifts by a whole word, on the growth policy of `std::vector`,
nor on where the vectors lie and their spare capacity. Unlike in C65 the vectors must agree in all bits of their words. -/
theorem C87_observations (hw : 0 < w) (S S2 : ShiftSem w) (P P2 : Policy) (h h2 : Heap w) (vs vs2 : List BV) (ss : List Store)
    (as : List (Act w)) (e : EnvAll h vs ss) (e2 : EnvAll h2 vs2 ss) (hv : AlongS (fun ss a => a.Pre ss ∧ a.Lim S ss) as ss)
    (hv2 : AlongS (fun ss a => a.Pre ss ∧ a.Lim S2 ss) as ss) :
    ∃ vs' h' vs2' h2' xs ss', runActs S P vs as h = .ok ((vs', xs), h') ∧ runActs S2 P2 vs2 as h2 = .ok ((vs2', xs), h2') ∧
      EnvAll h' vs' ss' ∧ EnvAll h2' vs2' ss' := by
  obtain ⟨vs', xs, h', ss', r1, s1, k1, -⟩ := C87_program hw S P h vs ss as e hv
  obtain ⟨vs2', xs2, h2', ss2', r2, s2, k2, -⟩ := C87_program hw S2 P2 h2 vs2 ss as e2 hv2
  obtain ⟨rfl, rfl⟩ := s1.unique s2
  exact ⟨vs', h', vs2', h2', xs, ss', r1, r2, k1, k2⟩

/-! ### What `resize` shows -/

/-- C87: after `resize(n)` or `resize(n, x)` element `k < n` is the bit that the words held there, whether or not it was an element before;
it is 0 if the words were too few. The value `x` plays no part. -/
theorem C87_resize_elements (hw : 0 < w) (s : Store) (n k : Nat) (hk : k < n) : (s.resize w n).elems[k]? = some ((s.bits[k]?).getD false) := by
  have := ceilW_ge hw n
  unfold Store.resize Store.elems
  rw [List.getElem?_take, if_pos hk, trim_get, if_pos (by omega)]
  split_ifs with h1
  · rw [List.getElem?_eq_getElem h1]; rfl
  · rw [List.getElem?_eq_none (by omega)]; rfl

/-- Two elements, the second one removed, and asked for again. -/
def regrow : List (Act 8) := [.call (.vec (.newBoolList [false, true])), .call (.vec (.pop 0)), .call (.size 0), .resizeVal 0 3 false, .call (.size 0),
  .call (.get 0 1), .call (.get 0 2)]

theorem regrow_valid (S : ShiftSem 8) : AlongS (fun ss a => a.Pre ss ∧ a.Lim S ss) regrow [] := by
  have lim : ∀ n : Nat, n < 100 → n < 2 ^ 32 := fun n hn => by omega
  refine ⟨⟨trivial, trivial, .inl trivial⟩, ?_⟩
  rintro _ _ ⟨rfl, rfl⟩
  refine ⟨⟨⟨by decide, by decide⟩, trivial, .inl trivial⟩, ?_⟩
  rintro _ _ ⟨rfl, rfl⟩
  refine ⟨⟨by show _ < _; decide, trivial⟩, ?_⟩
  rintro _ _ ⟨rfl, rfl⟩
  refine ⟨⟨by show _ < _; decide, lim 3 (by decide)⟩, ?_⟩
  rintro _ _ ⟨rfl, rfl⟩
  refine ⟨⟨by show _ < _; decide, trivial⟩, ?_⟩
  rintro _ _ ⟨rfl, rfl⟩
  refine ⟨⟨⟨by decide, by decide⟩, trivial⟩, ?_⟩
  intro ss' x hs
  have : ss' = _ := (hs.unique (s2 := [⟨[false, true, false, false, false, false, false, false], 3⟩]) (a2 := .bool true)
    ⟨⟨by decide, by decide⟩, by decide⟩).1
  subst this
  exact ⟨⟨⟨by decide, by decide⟩, trivial⟩, fun _ _ _ => trivial⟩

example (S : ShiftSem 8) : AlongS (fun ss a => a.Pre ss ∧ a.Lim S ss) regrow [] := regrow_valid S

/-- C87: a removed element comes back: a program that removes the element 1 at the end and calls `resize(3, false)` sees the 1 again. -/
theorem C87_removed_element_returns (S : ShiftSem 8) (P : Policy) :
    ∃ vs' h', runActs S P [] regrow (emptyHeap : Heap 8) = .ok ((vs', [.unit, .unit, .num 1, .unit, .num 3, .bool true, .bool false]), h') ∧
      EnvAll h' vs' [⟨[false, true, false, false, false, false, false, false], 3⟩] := by
  obtain ⟨vs', xs, h', ss', e, s, k1, u⟩ := C87_program (by decide) S P emptyHeap [] [] regrow (EnvAll.nil emptyHeap_wf) (regrow_valid S)
  refine ⟨vs', h', ?_⟩
  obtain ⟨k0, k⟩ := u [⟨[false, true, false, false, false, false, false, false], 3⟩] [.unit, .unit, .num 1, .unit, .num 3, .bool true, .bool false] (by
    let s1 : List Store := [⟨[false, true, false, false, false, false, false, false], 2⟩]
    let s2 : List Store := [⟨[false, true, false, false, false, false, false, false], 1⟩]
    let s3 : List Store := [⟨[false, true, false, false, false, false, false, false], 3⟩]
    exact .cons (s1 := s1) ⟨by decide, rfl⟩ (.cons (s1 := s2) ⟨by decide, rfl⟩ (.cons (s1 := s2) ⟨rfl, by decide⟩ (.cons (s1 := s3) ⟨by decide, rfl⟩
      (.cons (s1 := s3) ⟨rfl, by decide⟩ (.cons (s1 := s3) ⟨⟨rfl, by decide⟩, rfl⟩ (.cons (s1 := s3) ⟨⟨rfl, by decide⟩, rfl⟩ (.nil _))))))))
  rw [e, k, k0]
  exact ⟨rfl, k1⟩

end BitLib
