import Verif.Lemmas.StoreOps
import Verif.SpecActs
/-
Lemmas for C87 and C88: environments described by all bits of their words.
-/
namespace BitLib
variable {w : Nat}
open Store

/-! ### Environments -/

/-- The vector, with all the bits of its words as elements. -/
def BV.full (w : Nat) (v : BV) : BV := ⟨v.vec, v.vec.size * w⟩

theorem EnvAll.env {h : Heap w} {vs : List BV} {ss : List Store} (e : EnvAll h vs ss) : EnvOk h (vs.map (BV.full w)) (ss.map Store.bits) := by
  refine ⟨e.wf, by simp [e.len], fun i v l hv hl => ?_, fun i j v o hv ho hij => ?_⟩
  · rw [List.getElem?_map] at hv hl
    obtain ⟨v0, h1, rfl⟩ := Option.map_eq_some_iff.1 hv
    obtain ⟨s0, h2, rfl⟩ := Option.map_eq_some_iff.1 hl
    exact (e.holds i v0 s0 h1 h2).rep
  · rw [List.getElem?_map] at hv ho
    obtain ⟨v0, h1, rfl⟩ := Option.map_eq_some_iff.1 hv
    obtain ⟨o0, h2, rfl⟩ := Option.map_eq_some_iff.1 ho
    exact e.sep i j v0 o0 h1 h2 hij

theorem EnvAll.of {h : Heap w} {vs : List BV} {ss : List Store} (e : EnvOk h (vs.map (BV.full w)) (ss.map Store.bits))
    (hs : ∀ (i : Nat) (v : BV) (s : Store), vs[i]? = some v → ss[i]? = some s → v.length = s.n ∧ s.n ≤ s.bits.length) : EnvAll h vs ss := by
  refine ⟨e.wf, by simpa using e.len, fun i v s hv hl => ?_, fun i j v o hv ho hij => ?_⟩
  · exact ⟨e.rep i (v.full w) s.bits (by rw [List.getElem?_map, hv]; rfl) (by rw [List.getElem?_map, hl]; rfl), (hs i v s hv hl).1, (hs i v s hv hl).2⟩
  · exact e.sep i j (v.full w) (o.full w) (by rw [List.getElem?_map, hv]; rfl) (by rw [List.getElem?_map, ho]; rfl) hij

/-- The elements, as in C65. -/
theorem EnvAll.elems {h : Heap w} {vs : List BV} {ss : List Store} (e : EnvAll h vs ss) : EnvOk h vs (ss.map Store.elems) := by
  refine ⟨e.wf, by simp [e.len], fun i v l hv hl => ?_, e.sep⟩
  rw [List.getElem?_map] at hl
  obtain ⟨s0, h2, rfl⟩ := Option.map_eq_some_iff.1 hl
  exact (e.holds i v s0 hv h2).elems

theorem Rep.unique {h : Heap w} {v : BV} {l1 l2 : List Bool} (r1 : Rep h v l1) (r2 : Rep h v l2) : l1 = l2 := by
  have e1 := r1.len
  have e2 := r2.len
  refine List.ext_getElem (by omega) fun i h1 h2 => ?_
  have b1 := r1.bits i h1
  rw [r2.bits i h2] at b1
  exact (Option.some.inj b1).symm

theorem EnvAll.get {h : Heap w} {vs : List BV} {ss : List Store} (e : EnvAll h vs ss) {i : Nat} (hi : i < ss.length) :
    ∃ v, vs[i]? = some v ∧ ss[i]? = some (Store.at' ss i) ∧ HoldsAll h v (Store.at' ss i) := by
  have hl := e.len
  have h1 : vs[i]? = some (vs[i]'(by omega)) := List.getElem?_eq_getElem (by omega)
  have h2 : ss[i]? = some (Store.at' ss i) := by unfold Store.at'; rw [List.getElem?_eq_getElem hi]; rfl
  exact ⟨_, h1, h2, e.holds i _ _ h1 h2⟩

theorem EnvAll.update {h h' : Heap w} {vs : List BV} {ss : List Store} (e : EnvAll h vs ss) {i : Nat} {v v' : BV} {s' : Store} {u : Vec}
    (hv : vs[i]? = some v) (s : VStep h v.vec h' u) (hu : v'.vec = u ∨ v'.vec.cap = 0) (r : HoldsAll h' v' s') :
    EnvAll h' (vs.set i v') (ss.set i s') := by
  have k := e.env.update (v' := v'.full w) (l' := s'.bits) (i := i) (v := v.full w) (by rw [List.getElem?_map, hv]; rfl) s hu r.rep
  rw [← List.map_set, ← List.map_set] at k
  refine EnvAll.of k fun j x t hx ht => ?_
  rw [List.getElem?_set] at hx ht
  by_cases hj : i = j
  · rw [if_pos hj] at hx ht
    split_ifs at hx ht
    cases hx; cases ht
    exact ⟨r.len, r.fit⟩
  · rw [if_neg hj] at hx ht
    have := e.holds j x t hx ht
    exact ⟨this.len, this.fit⟩

theorem EnvAll.push {h h' : Heap w} {vs : List BV} {ss : List Store} (e : EnvAll h vs ss) {v' : BV} {s' : Store}
    (s : VStep h Vec.empty h' v'.vec) (r : HoldsAll h' v' s') : EnvAll h' (vs ++ [v']) (ss ++ [s']) := by
  have hl := e.len
  have k := e.env.push (v' := v'.full w) (l' := s'.bits) s r.rep
  refine EnvAll.of (by rw [List.map_append, List.map_append]; exact k) fun j x t hx ht => ?_
  rw [List.getElem?_append] at hx ht
  by_cases hj : j < vs.length
  · rw [if_pos hj] at hx
    rw [if_pos (by omega)] at ht
    have := e.holds j x t hx ht
    exact ⟨this.len, this.fit⟩
  · rw [if_neg hj] at hx
    rw [if_neg (by omega)] at ht
    by_cases h0 : j - vs.length = 0
    · rw [h0] at hx
      rw [show j - ss.length = 0 by omega] at ht
      cases hx; cases ht
      exact ⟨r.len, r.fit⟩
    · rw [List.getElem?_eq_none (by simp; omega)] at hx
      cases hx

theorem EnvAll.nil {h : Heap w} (hwf : h.WF) : EnvAll h [] [] := ⟨hwf, rfl, by simp, by simp⟩

theorem wpV_onVecW {h : Heap w} {vs : List BV} {ss : List Store} (e : EnvAll h vs ss) {i : Nat} (hi : i < ss.length)
    {f : BV → V w BV} {s' : Store}
    (hf : ∀ v, HoldsAll h v (Store.at' ss i) → wpV (f v) h fun v' h' => (∃ u, VStep h v.vec h' u ∧ (v'.vec = u ∨ v'.vec.cap = 0)) ∧ HoldsAll h' v' s') :
    wpV (onVec vs i f) h fun vs' h' => EnvAll h' vs' (ss.set i s') := by
  obtain ⟨v, h1, h2, r⟩ := e.get hi
  unfold onVec
  rw [h1]
  show wpV (f v >>= _) h _
  rw [wpV_bind]
  refine wpV_mono (hf v r) ?_
  rintro v' h' ⟨⟨u, s, hu⟩, r'⟩
  exact wpV_pure (e.update h1 s hu r')

theorem wpV_newVecW {h : Heap w} {vs : List BV} {ss : List Store} (e : EnvAll h vs ss) {f : V w BV} {s' : Store}
    (hf : wpV f h fun v' h' => VStep h Vec.empty h' v'.vec ∧ HoldsAll h' v' s') :
    wpV (newVec vs f) h fun vs' h' => EnvAll h' vs' (ss ++ [s']) := by
  unfold newVec
  rw [wpV_bind]
  refine wpV_mono hf ?_
  rintro v' h' ⟨s, r⟩
  exact wpV_pure (e.push s r)

theorem at'_map_elems (ss : List Store) (i : Nat) : Op.at' (ss.map Store.elems) i = (Store.at' ss i).elems := by
  unfold Op.at' Store.at'
  rw [List.getElem?_map]
  cases ss[i]? <;> rfl

theorem at'_map_bits (ss : List Store) (i : Nat) : Op.at' (ss.map Store.bits) i = (Store.at' ss i).bits := by
  unfold Op.at' Store.at'
  rw [List.getElem?_map]
  cases ss[i]? <;> rfl

theorem HoldsAll.elemsLength {h : Heap w} {v : BV} {s : Store} (r : HoldsAll h v s) : s.elems.length = s.n := by
  have := r.fit
  unfold Store.elems
  rw [List.length_take]; omega

theorem Store.elems_slice (s : Store) (a : Nat) {b : Nat} (hb : b ≤ s.n) : slice s.elems a b = slice s.bits a b := by
  unfold slice Store.elems
  rw [List.take_take, Nat.min_eq_left hb]

theorem stores_set_at' (ss : List Store) (i : Nat) : ss.set i (Store.at' ss i) = ss := by
  refine List.ext_getElem? fun k => ?_
  rw [List.getElem?_set]
  split_ifs with h1 h2
  · subst h1
    unfold Store.at'
    rw [List.getElem?_eq_getElem h2]; rfl
  · rw [List.getElem?_eq_none (by omega)]
  · rfl

/-! ### Algorithms -/

/-- The calls that do not look at the number of elements. -/
def Call.Algo : Call w → Prop
  | .vec _ | .size _ | .debugString _ => False
  | _ => True

/-- Two runs that differ only in the vectors they hand back. -/
def Alike (vs : List BV) (x y : V w (List BV × Ans)) : Prop :=
  ∃ z : V w Ans, x = (z >>= fun a => pure (vs.map (BV.full w), a)) ∧ y = (z >>= fun a => pure (vs, a))

theorem Alike.bind {α : Type} (vs : List BV) (x : V w α) (q : α → Ans) :
    Alike vs (x >>= fun r => pure (vs.map (BV.full w), q r)) (x >>= fun r => pure (vs, q r)) :=
  ⟨x >>= fun r => pure (q r), by simp only [bind_assoc, pure_bind], by simp only [bind_assoc, pure_bind]⟩

theorem Alike.withVec (vs : List BV) (i : Nat) {f g : BV → V w (List BV × Ans)} (hfg : ∀ v, Alike vs (f (v.full w)) (g v)) :
    Alike vs (withVec (vs.map (BV.full w)) i f) (withVec vs i g) := by
  unfold BitLib.withVec
  rw [List.getElem?_map]
  cases hv : vs[i]? with
  | none => exact ⟨ubV .badRange, rfl, rfl⟩
  | some v => exact hfg v

/-- An algorithm does the same whether or not the bits behind the elements are taken for elements. -/
theorem Call.alike (S : ShiftSem w) (P : Policy) (vs : List BV) (c : Call w) (hc : c.Algo) :
    Alike vs (c.exec S P (vs.map (BV.full w))) (c.exec S P vs) := by
  cases c with
  | vec op => exact hc.elim
  | size i => exact hc.elim
  | debugString i => exact hc.elim
  | copy j a b i d => exact .withVec vs j fun o => .withVec vs i fun v => .bind vs _ _
  | move j a b i d => exact .withVec vs j fun o => .withVec vs i fun v => .bind vs _ _
  | copyBackward j a b i d => exact .withVec vs j fun o => .withVec vs i fun v => .bind vs _ _
  | fill i a b x => exact .withVec vs i fun v => .bind vs _ _
  | reverse i a b => exact .withVec vs i fun v => .bind vs _ _
  | rotate i a k b => exact .withVec vs i fun v => .bind vs _ _
  | shiftLeft i a b n => exact .withVec vs i fun v => .bind vs _ _
  | shiftRight i a b n => exact .withVec vs i fun v => .bind vs _ _
  | swapRanges i a b j k => exact .withVec vs i fun v => .withVec vs j fun o => .bind vs _ _
  | transform op f j a b i d => exact .withVec vs j fun o => .withVec vs i fun v => .bind vs _ _
  | transform2 op f j a b j2 c i d => exact .withVec vs j fun o => .withVec vs j2 fun o2 => .withVec vs i fun v => .bind vs _ _
  | find i a b x => exact .withVec vs i fun v => .bind vs _ _
  | count i a b x => exact .withVec vs i fun v => .bind vs _ _
  | equal i a b j c => exact .withVec vs i fun v => .withVec vs j fun o => .bind vs _ _
  | get i k => exact .withVec vs i fun v => .bind vs _ _

theorem Alike.ok {vs : List BV} {x y : V w (List BV × Ans)} (hxy : Alike vs x y) {h h' : Heap w} {r : List BV × Ans} (e : x h = .ok (r, h')) :
    r.1 = vs.map (BV.full w) ∧ y h = .ok ((vs, r.2), h') := by
  obtain ⟨z, rfl, rfl⟩ := hxy
  change Except.bind (z h) _ = _ at e
  show _ ∧ Except.bind (z h) _ = _
  cases hz : z h with
  | error u => rw [hz] at e; cases e
  | ok p =>
    rw [hz] at e
    cases e
    exact ⟨rfl, rfl⟩

theorem part_bits {ss : List Store} {i a b : Nat} (h : Call.Part (ss.map Store.elems) i a b) : Call.Part (ss.map Store.bits) i a b := by
  obtain ⟨h1, h2, h3⟩ := h
  rw [at'_map_elems] at h3
  refine ⟨by simpa using h1, h2, ?_⟩
  rw [at'_map_bits]
  unfold Store.elems at h3
  rw [List.length_take] at h3
  omega

theorem pre_bits {ss : List Store} {c : Call w} (hc : c.Algo) (h : c.Pre (ss.map Store.elems)) : c.Pre (ss.map Store.bits) := by
  cases c with
  | vec op => exact hc.elim
  | size i => exact hc.elim
  | debugString i => exact hc.elim
  | copy j a b i d => exact ⟨part_bits h.1, part_bits h.2.1, h.2.2⟩
  | move j a b i d => exact ⟨part_bits h.1, part_bits h.2.1, h.2.2⟩
  | copyBackward j a b i d => exact ⟨part_bits h.1, part_bits h.2.1, h.2.2⟩
  | fill i a b x => exact part_bits h
  | reverse i a b => exact part_bits h
  | rotate i a k b => exact ⟨part_bits h.1, h.2⟩
  | shiftLeft i a b n => exact part_bits h
  | shiftRight i a b n => exact part_bits h
  | swapRanges i a b j k => exact ⟨part_bits h.1, part_bits h.2.1, h.2.2⟩
  | transform op f j a b i d => exact ⟨h.1, part_bits h.2.1, part_bits h.2.2.1, h.2.2.2⟩
  | transform2 op f j a b j2 c i d => exact ⟨h.1, part_bits h.2.1, part_bits h.2.2.1, part_bits h.2.2.2.1, h.2.2.2.2⟩
  | find i a b x => exact part_bits h
  | count i a b x => exact part_bits h
  | equal i a b j c => exact ⟨part_bits h.1, part_bits h.2⟩
  | get i k =>
    have : Call.Part (ss.map Store.elems) i k (k + 1) := ⟨h.1, by omega, h.2⟩
    exact ⟨(part_bits this).1, (part_bits this).2.2⟩

theorem lim_bits (S : ShiftSem w) {ss : List Store} {c : Call w} (hc : c.Algo) (h : (Act.call c).Lim S ss) : c.Lim S (ss.map Store.bits) := by
  cases c with
  | vec op => exact hc.elim
  | size i => exact hc.elim
  | debugString i => exact hc.elim
  | count i a b x => exact .inl (by rw [at'_map_bits]; exact h)
  | _ => exact h

theorem zip_bits {ls : List (List Bool)} {ns : List Nat} (h : ls.length = ns.length) : (List.zipWith Store.mk ls ns).map Store.bits = ls := by
  rw [List.map_zipWith]
  induction ls generalizing ns with
  | nil => rfl
  | cons l ls ih =>
    cases ns with
    | nil => simp at h
    | cons n ns => rw [List.zipWith_cons_cons, ih (by simpa using h)]

theorem zip_n {ls : List (List Bool)} {ns : List Nat} (h : ls.length = ns.length) : (List.zipWith Store.mk ls ns).map Store.n = ns := by
  rw [List.map_zipWith]
  induction ls generalizing ns with
  | nil => cases ns with
    | nil => rfl
    | cons n ns => simp at h
  | cons l ls ih =>
    cases ns with
    | nil => simp at h
    | cons n ns => rw [List.zipWith_cons_cons, ih (by simpa using h)]

theorem spec_alg {ss ss' : List Store} {c : Call w} {ans : Ans} (hc : c.Algo) :
    (Act.call c).Spec ss ss' ans ↔ c.Spec (ss.map Store.bits) (ss'.map Store.bits) ans ∧ ss'.map Store.n = ss.map Store.n := by
  cases c with
  | vec op => exact hc.elim
  | size i => exact hc.elim
  | debugString i => exact hc.elim
  | _ => rfl

/-- The limits of C65 are enough. -/
theorem EnvAll.lim {h : Heap w} {vs : List BV} {ss : List Store} (e : EnvAll h vs ss) (S : ShiftSem w) {c : Call w}
    (hpre : c.Pre (ss.map Store.elems)) (hlim : c.Lim S (ss.map Store.elems)) : (Act.call c).Lim S ss := by
  cases c with
  | count i a b x =>
    obtain ⟨hi, hab, hb⟩ := hpre
    change _ < _ ∨ _ at hlim
    obtain ⟨v, h1, h2, r⟩ := e.get (i := i) (by simpa using hi)
    rw [at'_map_elems, r.elemsLength] at hb hlim
    have f1 := r.fit
    have f2 := r.rep.len
    dsimp only at f2
    show a < (Store.at' ss i).bits.length
    rcases hlim with hl | hl
    · omega
    · have : (Store.at' ss i).n ≠ (Store.at' ss i).bits.length := fun hx => hl (by rw [hx, ← f2]; exact Nat.mul_mod_left _ _)
      omega
  | _ => exact hlim

/-! ### Uniqueness -/

/-- A call has exactly one result. -/
theorem Act.Spec.unique {ss s1 s2 : List Store} {a : Act w} {a1 a2 : Ans} (h1 : a.Spec ss s1 a1) (h2 : a.Spec ss s2 a2) :
    s1 = s2 ∧ a1 = a2 := by
  have key : ∀ {L : List Store} {A : Ans}, (s1 = L ∧ a1 = A) → (s2 = L ∧ a2 = A) → s1 = s2 ∧ a1 = a2 := by
    rintro L A ⟨rfl, rfl⟩ ⟨rfl, rfl⟩; exact ⟨rfl, rfl⟩
  have alg : ∀ c : Call w, a = .call c → c.Algo → s1 = s2 ∧ a1 = a2 := by
    rintro c rfl hc
    obtain ⟨x1, y1⟩ := (spec_alg hc).1 h1
    obtain ⟨x2, y2⟩ := (spec_alg hc).1 h2
    obtain ⟨z1, z2⟩ := x1.unique x2
    refine ⟨?_, z2⟩
    rw [← y2] at y1
    refine List.ext_getElem? fun i => ?_
    have p1 := congrArg (·[i]?) z1
    have p2 := congrArg (·[i]?) y1
    rw [List.getElem?_map, List.getElem?_map] at p1 p2
    cases q1 : s1[i]? with
    | none =>
      rw [q1] at p1
      exact (Option.map_eq_none_iff.1 p1.symm).symm
    | some t1 =>
      rw [q1] at p1 p2
      obtain ⟨t2, q2, r2⟩ := Option.map_eq_some_iff.1 p1.symm
      rw [q2] at p2 ⊢
      cases t1; cases t2
      simp_all
  cases a with
  | resize i n => exact key h1 h2
  | resizeVal i n x => exact key h1 h2
  | call c =>
    cases c with
    | vec op => exact key h1 h2
    | size i => exact key h1 h2
    | debugString i => exact key h1 h2
    | _ => exact alg _ rfl trivial

theorem StoreRun.unique {ss s1 s2 : List Store} {as : List (Act w)} {a1 a2 : List Ans} (h1 : StoreRun ss as s1 a1)
    (h2 : StoreRun ss as s2 a2) : s1 = s2 ∧ a1 = a2 := by
  induction h1 generalizing s2 a2 with
  | nil ss => cases h2; exact ⟨rfl, rfl⟩
  | cons s _ ih =>
    cases h2 with
    | cons s2 r2 =>
      obtain ⟨rfl, rfl⟩ := s.unique s2
      obtain ⟨rfl, rfl⟩ := ih r2
      exact ⟨rfl, rfl⟩

theorem Act.ListSpec.unique {ls l1 l2 : List (List Bool)} {a : Act w} {a1 a2 : Ans} (h1 : a.ListSpec ls l1 a1) (h2 : a.ListSpec ls l2 a2) :
    l1 = l2 ∧ a1 = a2 := by
  cases a with
  | call c => exact Call.Spec.unique (c := c) h1 h2
  | resize i n => obtain ⟨rfl, rfl⟩ := h1; obtain ⟨rfl, rfl⟩ := h2; exact ⟨rfl, rfl⟩
  | resizeVal i n x => obtain ⟨rfl, rfl⟩ := h1; obtain ⟨rfl, rfl⟩ := h2; exact ⟨rfl, rfl⟩

theorem ListRun.unique {ls l1 l2 : List (List Bool)} {as : List (Act w)} {a1 a2 : List Ans} (h1 : ListRun ls as l1 a1)
    (h2 : ListRun ls as l2 a2) : l1 = l2 ∧ a1 = a2 := by
  induction h1 generalizing l2 a2 with
  | nil ss => cases h2; exact ⟨rfl, rfl⟩
  | cons s _ ih =>
    cases h2 with
    | cons s2 r2 =>
      obtain ⟨rfl, rfl⟩ := s.unique s2
      obtain ⟨rfl, rfl⟩ := ih r2
      exact ⟨rfl, rfl⟩

/-! ### Single vectors -/

theorem Store.clean_iff {s : Store} : s.Clean ↔ ∀ k, s.n ≤ k → (s.bits[k]?).getD false = false := by
  constructor
  · intro h k hk
    by_cases hl : k < s.bits.length
    · rw [h k hk hl]; rfl
    · rw [List.getElem?_eq_none (by omega)]; rfl
  · intro h k hk hl
    have := h k hk
    rw [List.getElem?_eq_getElem hl] at this ⊢
    rw [show s.bits[k] = false from this]

theorem clean_put (hw : 0 < w) {s : Store} {d : Nat} {xs : List Bool} (hc : s.Clean) (hd : d ≤ s.n) (hf : s.n ≤ s.bits.length) : (put w s d xs).Clean := by
  rw [clean_iff] at hc ⊢
  intro k hk
  change s.n + xs.length ≤ k at hk
  have h1 := slice_length s.bits (a := d) hf
  have h2 := widen_length (w := w) s.bits (s.n + xs.length)
  unfold put
  dsimp only
  have h3 := ceilW_ge hw (s.n + xs.length)
  rw [splice_get _ _ (by rw [List.length_append, h1]; omega), if_neg (by rw [List.length_append, h1]; omega), widen_get]
  split_ifs
  · exact hc k (by omega)
  · rfl
  · rfl

theorem clean_trim {s : Store} {n : Nat} (hc : s.Clean) (hx : ∀ x ∈ s.elems.drop n, x = false) : (s.resize w n).Clean := by
  rw [clean_iff] at hc ⊢
  intro k hk
  change n ≤ k at hk
  unfold Store.resize
  dsimp only
  rw [trim_get]
  split_ifs with h1 h2
  · by_cases hkn : k < s.n
    · have : s.elems[k]? = s.bits[k]? := by unfold Store.elems; rw [List.getElem?_take, if_pos hkn]
      rw [List.getElem?_eq_getElem h2] at this ⊢
      refine hx _ (List.mem_iff_getElem?.2 ⟨k - n, ?_⟩)
      rw [List.getElem?_drop, show n + (k - n) = k by omega, this]; rfl
    · exact hc k (by omega)
  · rfl
  · rfl

theorem clean_pop {s : Store} (hc : s.Clean) (hf : s.n ≤ s.bits.length) (hx : s.elems.getLast? = some false) : (s.pop w).Clean := by
  rw [clean_iff] at hc ⊢
  intro k hk
  change s.n - 1 ≤ k at hk
  have hl : s.elems.length = s.n := by unfold Store.elems; rw [List.length_take]; omega
  have h0 : (s.bits[k]?).getD false = false := by
    by_cases hkn : k < s.n
    · rw [List.getLast?_eq_getElem?, hl] at hx
      rw [show k = s.n - 1 by omega]
      have : s.elems[s.n - 1]? = s.bits[s.n - 1]? := by unfold Store.elems; rw [List.getElem?_take, if_pos (by omega)]
      rw [← this, hx]; rfl
    · exact hc k (by omega)
  unfold Store.pop Store.less
  dsimp only
  split_ifs
  · rw [List.getElem?_take]
    split_ifs
    · exact h0
    · rfl
  · exact h0

theorem clean_of_append {l : List Bool} {m : Nat} : (⟨l ++ List.replicate m false, l.length⟩ : Store).Clean := by
  rw [clean_iff]
  intro k hk
  change l.length ≤ k at hk
  dsimp only
  rw [List.getElem?_append_right hk, List.getElem?_replicate]
  split_ifs <;> rfl

theorem clean_replicate {n m : Nat} : (⟨List.replicate m false, n⟩ : Store).Clean := by
  rw [clean_iff]
  intro k hk
  dsimp only
  rw [List.getElem?_replicate]
  split_ifs <;> rfl

theorem clean_all {l : List Bool} {n : Nat} (h : l.length ≤ n) : (⟨l, n⟩ : Store).Clean := by
  rw [clean_iff]
  intro k hk
  change n ≤ k at hk
  dsimp only
  rw [List.getElem?_eq_none (by omega)]; rfl

theorem clean_set {s : Store} {k : Nat} {x : Bool} (hc : s.Clean) (hk : k < s.n) : (⟨s.bits.set k x, s.n⟩ : Store).Clean := by
  rw [clean_iff] at hc ⊢
  intro j hj
  change s.n ≤ j at hj
  dsimp only
  rw [List.getElem?_set_ne (by omega)]
  exact hc j hj

/-! ### Programs of calm calls -/

def CleanAll (ss : List Store) : Prop := ∀ s ∈ ss, s.Clean

theorem CleanAll.at' {ss : List Store} (hc : CleanAll ss) (i : Nat) : (Store.at' ss i).Clean := by
  unfold Store.at'
  cases h : ss[i]? with
  | none => exact clean_all (Nat.le_refl _)
  | some s => exact hc s (List.mem_of_getElem? h)

theorem CleanAll.set {ss : List Store} (hc : CleanAll ss) {i : Nat} {s : Store} (hs : s.Clean) : CleanAll (ss.set i s) := by
  intro t ht
  rcases List.mem_or_eq_of_mem_set ht with h | rfl
  · exact hc t h
  · exact hs

theorem CleanAll.push {ss : List Store} (hc : CleanAll ss) {s : Store} (hs : s.Clean) : CleanAll (ss ++ [s]) := by
  intro t ht
  rcases List.mem_append.1 ht with h | h
  · exact hc t h
  · rw [List.mem_singleton.1 h]; exact hs

/-- Calm members keep the bits behind the elements 0. -/
theorem clean_member {h : Heap w} {vs : List BV} {ss : List Store} (e : EnvAll h vs ss) (hw : 0 < w) (hc : CleanAll ss) (op : Op w)
    (hpre : op.Pre (ss.map Store.elems)) (hcalm : (Act.call (.vec op)).Calm (ss.map Store.elems)) : CleanAll (op.store ss) := by
  have hml : (ss.map Store.elems).length = ss.length := List.length_map _
  have fit : ∀ i, i < (ss.map Store.elems).length → (Store.at' ss i).n ≤ (Store.at' ss i).bits.length := by
    intro i hi
    obtain ⟨v, _, _, r⟩ := e.get (i := i) (by omega)
    exact r.fit
  have hel : ∀ i, i < (ss.map Store.elems).length → (Op.at' (ss.map Store.elems) i).length = (Store.at' ss i).n := by
    intro i hi
    obtain ⟨v, _, _, r⟩ := e.get (i := i) (by omega)
    rw [at'_map_elems, r.elemsLength]
  cases op with
  | newEmpty => exact hc.push (clean_all (Nat.le_refl _))
  | newCount n => exact hc.push clean_replicate
  | newCountVal n x =>
    refine hc.push ?_
    rcases hcalm with rfl | h0
    · exact clean_replicate
    · refine clean_all ?_
      obtain ⟨k, rfl⟩ := Nat.dvd_of_mod_eq_zero h0
      rw [List.length_replicate, Nat.mul_comm, ceilW_mul hw]
  | newString s => exact hc.push clean_of_append
  | newBoolRange l => exact hc.push clean_of_append
  | newBoolList l => exact hc.push clean_of_append
  | newWords l => exact hc.push (clean_all (by rw [bitsOfWords_length]))
  | newBits j a b => exact hc.push clean_of_append
  | newCopy j => exact hc.push (hc.at' j)
  | push i x => exact hc.set (clean_put hw (hc.at' i) (Nat.le_refl _) (fit i hpre))
  | pop i => exact hc.set (clean_pop (hc.at' i) (fit i hpre.1) (by rw [← at'_map_elems]; exact hcalm))
  | insert i d x => exact hc.set (clean_put hw (hc.at' i) (by rw [← hel i hpre.1]; exact hpre.2) (fit i hpre.1))
  | insertN i d n x => exact hc.set (clean_put hw (hc.at' i) (by rw [← hel i hpre.1]; exact hpre.2) (fit i hpre.1))
  | insertRange i d j a b => exact hc.set (clean_put hw (hc.at' i) (by rw [← hel i hpre.1]; exact hpre.2.1) (fit i hpre.1))
  | erase i d => exact hcalm.elim
  | eraseRange i a b => exact hcalm.elim
  | clear i => exact hc.set (clean_all (Nat.le_refl _))
  | set i k x => exact hc.set (clean_set (hc.at' i) (by rw [← hel i hpre.1]; exact hpre.2))
  | copyAssign i j => exact hc.set (hc.at' j)
  | moveAssign i j => exact (hc.set (hc.at' j)).set (clean_all (Nat.le_refl _))
  | reserve i n => exact hc
  | shrinkToFit i => exact hc
  | shrink i n => exact hc.set (clean_trim (hc.at' i) (by rw [← at'_map_elems]; exact hcalm))
  | destroy i => exact hc.set (clean_all (Nat.le_refl _))

theorem slice_length_le (l : List Bool) (a b : Nat) : (slice l a b).length ≤ b - a := by
  unfold slice
  rw [List.length_drop, List.length_take]; omega

/-- Elements of vector `i` change, at positions below `ns i`. -/
theorem keep_splice {ls : List (List Bool)} {ns : Nat → Nat} {i d : Nat} {xs : List Bool} (hi : i < ls.length) (hd : d + xs.length ≤ ns i)
    (hn : ns i ≤ (Op.at' ls i).length) (j k : Nat) (hk : ns j ≤ k) :
    (Op.at' (ls.set i (splice (Op.at' ls i) d xs)) j)[k]? = (Op.at' ls j)[k]? := by
  by_cases hij : i = j
  · subst hij
    have : Op.at' (ls.set i (splice (Op.at' ls i) d xs)) i = splice (Op.at' ls i) d xs := by
      show (_)[i]?.getD _ = _
      rw [List.getElem?_set, if_pos rfl, if_pos hi]; rfl
    rw [this, splice_get _ _ (by omega), if_neg (by omega)]
  · have : Op.at' (ls.set i (splice (Op.at' ls i) d xs)) j = Op.at' ls j := by
      show (_)[j]?.getD _ = (_)[j]?.getD _
      rw [List.getElem?_set, if_neg hij]
    rw [this]

end BitLib
