import Verif.SpecTests
import Verif.Props.Exact
import Verif.Props.IterOps
import Mathlib.Tactic.Tauto
/-
Helper lemmas for C81: comparisons, single statements and whole tests.
-/
namespace BitLib.Tests
open Op (at')
open BitIter
variable {w : Nat}

theorem wp_sameBits (S : ShiftSem w) (hw : 0 < w) {m : Mem w} (l : List Bool) {fuel : Nat} {it last : BitIter w}
    {Q : Bool → Mem w → Prop} (hit : it.Valid) (hla : last.Valid) (hlen : last.addr = it.addr + l.length) (hfuel : l.length < fuel)
    (hb : ∀ (i : Nat) (hi : i < l.length), bitAt m (it.addr + (i : Int)) = some l[i]) (hQ : Q true m) :
    wp (sameBits S fuel it last l) m Q := by
  induction l generalizing fuel it Q with
  | nil =>
    obtain ⟨fuel, rfl⟩ : ∃ k, fuel = k + 1 := ⟨fuel - 1, by simp at hfuel; omega⟩
    have : it = last := addr_inj hit hla (by simp at hlen; omega)
    subst this
    unfold sameBits
    rw [if_neg (bne_self _), wp_pure]
    exact hQ
  | cons b l ih =>
    rw [List.length_cons] at hlen hfuel
    obtain ⟨fuel, rfl⟩ : ∃ k, fuel = k + 1 := ⟨fuel - 1, by omega⟩
    unfold sameBits
    rw [if_pos (bne_of_addr hit hla (by omega)), wp_bind]
    refine wp_deref S hit ?_
    intro r hr
    rw [wp_bind]
    have hb0 := hb 0 (by rw [List.length_cons]; omega)
    rw [show it.addr + ((0 : Nat) : Int) = it.addr by omega] at hb0
    refine wp_refRead hr hb0 ?_
    have hi : it.inc.addr = it.addr + 1 := by rw [inc_eq_add hit, add_addr hw]
    have hiv : it.inc.Valid := by rw [inc_eq_add hit]; exact add_valid hw _ _
    rw [if_pos (by rfl)]
    refine ih hiv (by omega) (by omega) ?_ hQ
    intro i hi'
    have := hb (i + 1) (by rw [List.length_cons]; omega)
    rw [hi, show it.addr + 1 + (i : Int) = it.addr + ((i + 1 : Nat) : Int) by omega, this]
    rfl

/-- Comparing elements `[a, b)` of a vector with the list of their values. -/
theorem equalBits_ok (hw : 0 < w) (S : ShiftSem w) {h : Heap w} {v : BV} {l s : List Bool} (r : Rep h v l) {first last : BitIter w} {a b : Nat}
    (pa : IsPos v first a) (pb : IsPos v last b) (hab : a ≤ b) (hb : b ≤ l.length) (hs : s = slice l a b) :
    onMem (equalBits S first last s) h = .ok (true, h) := by
  have hl : s.length = b - a := by rw [hs, slice_length _ hb]
  have hh := r.holds pa pb hab hb
  have : wpV (onMem (equalBits S first last s)) h (fun x h' => x = true ∧ h' = h) := by
    refine wpV_onMem ?_
    unfold equalBits
    rw [if_pos (by rw [BitIter.diff_eq, pa.2, pb.2]; omega)]
    refine wp_sameBits S hw s pa.1 pb.1 (by rw [pa.2, pb.2]; omega) (by omega) ?_ ⟨rfl, rfl⟩
    intro i hi
    subst hs
    exact hh.bits i hi
  obtain ⟨x, h', e, rfl, rfl⟩ := this
  exact e

theorem check_all (hw : 0 < w) (S : ShiftSem w) {h : Heap w} {vs : List BV} {bs : List (List Bool)} (e : EnvOk h vs bs) {i : Nat}
    (hi : i < bs.length) (a b : Ans) : (Check.all i).run S vs bs a b h = .ok (true, h) := by
  obtain ⟨v, hv, _, r⟩ := e.get hi
  show withVec vs i _ h = _
  unfold withVec
  rw [hv]
  refine equalBits_ok hw S r (a := 0) (b := (at' bs i).length) ⟨BV.begin_valid hw v, by rw [BV.begin_addr]; omega⟩ ?_ (Nat.zero_le _) (Nat.le_refl _) ?_
  · have := IsPos.begin_add hw v (at' bs i).length
    unfold BV.end
    rw [r.len]
    exact this
  · unfold slice
    rw [List.drop_zero, List.take_length]

theorem wp_sameBits_dec (S : ShiftSem w) (hw : 0 < w) {m : Mem w} (s l : List Bool) {fuel : Nat} {it last : BitIter w}
    {Q : Bool → Mem w → Prop} (hit : it.Valid) (hla : last.Valid) (hlen : last.addr = it.addr + s.length) (hsl : s.length = l.length)
    (hfuel : s.length < fuel) (hb : ∀ (i : Nat) (hi : i < s.length), bitAt m (it.addr + (i : Int)) = some s[i]) (hQ : Q (decide (s = l)) m) :
    wp (sameBits S fuel it last l) m Q := by
  induction s generalizing fuel it l Q with
  | nil =>
    obtain rfl : l = [] := List.length_eq_zero_iff.1 hsl.symm
    exact wp_sameBits S hw [] hit hla hlen hfuel (by simp) (by simpa using hQ)
  | cons c s ih =>
    obtain ⟨b, l, rfl⟩ : ∃ b l', l = b :: l' := by
      cases l with
      | nil => simp at hsl
      | cons b l => exact ⟨b, l, rfl⟩
    rw [List.length_cons] at hlen hfuel
    simp only [List.length_cons, Nat.add_right_cancel_iff] at hsl
    obtain ⟨fuel, rfl⟩ : ∃ k, fuel = k + 1 := ⟨fuel - 1, by omega⟩
    unfold sameBits
    rw [if_pos (bne_of_addr hit hla (by omega)), wp_bind]
    refine wp_deref S hit ?_
    intro r hr
    rw [wp_bind]
    have hb0 := hb 0 (by rw [List.length_cons]; omega)
    rw [show it.addr + ((0 : Nat) : Int) = it.addr by omega] at hb0
    refine wp_refRead hr hb0 ?_
    have hi : it.inc.addr = it.addr + 1 := by rw [inc_eq_add hit, add_addr hw]
    have hiv : it.inc.Valid := by rw [inc_eq_add hit]; exact add_valid hw _ _
    by_cases hcb : c = b
    · rw [if_pos (by exact hcb)]
      subst hcb
      refine ih l hiv (by omega) hsl (by omega) ?_ (by simpa using hQ)
      intro i hi'
      have := hb (i + 1) (by rw [List.length_cons]; omega)
      rw [hi, show it.addr + 1 + (i : Int) = it.addr + ((i + 1 : Nat) : Int) by omega, this]
      rfl
    · rw [if_neg (by exact hcb), wp_pure]
      simpa [hcb] using hQ

/-- Comparing elements `[a, b)` of a vector with any list. -/
theorem equalBits_dec (hw : 0 < w) (S : ShiftSem w) {h : Heap w} {v : BV} {l : List Bool} (r : Rep h v l) {first last : BitIter w} {a b : Nat}
    (pa : IsPos v first a) (pb : IsPos v last b) (hab : a ≤ b) (hb : b ≤ l.length) (s : List Bool) :
    onMem (equalBits S first last s) h = .ok (decide (slice l a b = s), h) := by
  have hl : (slice l a b).length = b - a := slice_length _ hb
  have hh := r.holds pa pb hab hb
  have : wpV (onMem (equalBits S first last s)) h (fun x h' => x = decide (slice l a b = s) ∧ h' = h) := by
    refine wpV_onMem ?_
    unfold equalBits
    by_cases hs : (slice l a b).length = s.length
    · rw [if_pos (by rw [BitIter.diff_eq, pa.2, pb.2]; omega)]
      exact wp_sameBits_dec S hw _ s pa.1 pb.1 (by rw [pa.2, pb.2]; omega) hs (by omega) hh.bits ⟨rfl, rfl⟩
    · rw [if_neg (by rw [BitIter.diff_eq, pa.2, pb.2]; omega), wp_pure]
      exact ⟨(decide_eq_false fun hx => hs (by rw [hx])).symm, rfl⟩
  obtain ⟨x, h', e, rfl, rfl⟩ := this
  exact e

/-- A comparison says whether its expectation is met. -/
theorem check_dec (hw : 0 < w) (S : ShiftSem w) {h : Heap w} {vs : List BV} {ls bs : List (List Bool)} (e : EnvOk h vs ls) {a b : Ans} (c : Check)
    (hd : c.Defined ls bs a b) : ∃ x, c.run S vs bs a b h = .ok (x, h) ∧ (x = true ↔ c.Met ls bs a b) := by
  cases c with
  | all i =>
    obtain ⟨v, hv, _, r⟩ := e.get hd
    refine ⟨decide (at' ls i = at' bs i), ?_, decide_eq_true_iff⟩
    show withVec vs i _ h = _
    unfold withVec
    rw [hv]
    have := equalBits_dec hw S r (a := 0) (b := (at' ls i).length) ⟨BV.begin_valid hw v, by rw [BV.begin_addr]; omega⟩
      (last := v.end) ?_ (Nat.zero_le _) (Nat.le_refl _) (at' bs i)
    · unfold slice at this
      rw [List.drop_zero, List.take_length] at this
      exact this
    · have := IsPos.begin_add hw v (at' ls i).length
      unfold BV.end
      rw [r.len]
      exact this
  | before i =>
    obtain ⟨hi, p, q, rfl, rfl, hp, hq⟩ := hd
    obtain ⟨v, hv, _, r⟩ := e.get hi
    refine ⟨decide ((at' ls i).take p = (at' bs i).take q), ?_, decide_eq_true_iff.trans ⟨fun hx => ⟨p, q, rfl, rfl, hx⟩, ?_⟩⟩
    · show withVec vs i _ h = _
      unfold withVec
      rw [hv]
      have := equalBits_dec hw S r (a := 0) (b := p) ⟨BV.begin_valid hw v, by rw [BV.begin_addr]; omega⟩ (IsPos.begin_add hw v p) (Nat.zero_le _) hp
        ((at' bs i).take q)
      unfold slice at this
      rw [List.drop_zero] at this
      exact this
    · rintro ⟨p', q', e1, e2, hx⟩
      cases e1
      cases e2
      exact hx
  | after i =>
    obtain ⟨hi, p, q, rfl, rfl, hp, hq⟩ := hd
    obtain ⟨v, hv, _, r⟩ := e.get hi
    refine ⟨decide ((at' ls i).drop p = (at' bs i).drop q), ?_, decide_eq_true_iff.trans ⟨fun hx => ⟨p, q, rfl, rfl, hx⟩, ?_⟩⟩
    · show withVec vs i _ h = _
      unfold withVec
      rw [hv]
      have := equalBits_dec hw S r (a := p) (b := (at' ls i).length) (IsPos.begin_add hw v p) (last := v.end) ?_ hp (Nat.le_refl _) ((at' bs i).drop q)
      · unfold slice at this
        rw [List.take_length] at this
        exact this
      · have := IsPos.begin_add hw v (at' ls i).length
        unfold BV.end
        rw [r.len]
        exact this
    · rintro ⟨p', q', e1, e2, hx⟩
      cases e1
      cases e2
      exact hx

theorem checks_dec (hw : 0 < w) (S : ShiftSem w) {h : Heap w} {vs : List BV} {ls bs : List (List Bool)} (e : EnvOk h vs ls) {a b : Ans} (cs : List Check)
    (hd : ∀ c ∈ cs, c.Defined ls bs a b) : ∃ x, runChecks S vs bs a b cs h = .ok (x, h) ∧ (x = true ↔ ∀ c ∈ cs, c.Met ls bs a b) := by
  induction cs with
  | nil => exact ⟨true, rfl, by simp⟩
  | cons c cs ih =>
    obtain ⟨x, e1, i1⟩ := check_dec hw S e c (hd c List.mem_cons_self)
    obtain ⟨y, e2, i2⟩ := ih fun c' hm => hd c' (List.mem_cons_of_mem _ hm)
    refine ⟨x && y, ?_, by rw [Bool.and_eq_true, i1, i2, List.forall_mem_cons]⟩
    unfold runChecks
    rw [runV_bind_ok e1, runV_bind_ok e2]
    rfl

/-! ### Single statements -/

theorem spec_std (bs : List (List Bool)) (c : Call w) (hp : (Act.call c).Plain) : c.Spec bs (stdCall bs c).1 (stdCall bs c).2 := by
  cases c with
  | shiftLeft i a b n => exact hp.elim
  | shiftRight i a b n => exact hp.elim
  | _ => exact ⟨rfl, rfl⟩

theorem call_lim {S : ShiftSem w} {bs : List (List Bool)} {c : Call w} (hp : (Act.call c).Plain) (hs : (Act.call c).Size bs)
    (hc : (Act.call c).Calm bs ∨ S.FullShiftOk) : c.Lim S bs := by
  cases c with
  | vec op =>
    refine ⟨hs, .inl ?_⟩
    cases op with
    | insert i d x => exact hp.elim
    | insertN i d n x => exact hp.elim
    | insertRange i d j a b => exact hp.elim
    | erase i d => exact hp.elim
    | eraseRange i a b => exact hp.elim
    | _ => trivial
  | shiftLeft i a b n => exact hp.elim
  | shiftRight i a b n => exact hp.elim
  | copyBackward j a b i d => exact hc
  | reverse i a b => exact hc
  | rotate i a k b => exact hs
  | count i a b x => exact hs
  | debugString i => exact hs
  | _ => trivial

/-- A valid call does the same on both sides. -/
theorem act_ok (hw : 0 < w) (S : ShiftSem w) (P : Policy) {h : Heap w} {vs : List BV} {bs : List (List Bool)} (e : EnvOk h vs bs) (a : Act w)
    (hpl : a.Plain) (hpre : a.Pre bs) (hs : a.Size bs) (hc : a.Calm bs ∨ S.FullShiftOk) :
    ∃ vs' h', a.exec S P vs h = .ok ((vs', (a.std bs).2), h') ∧ EnvOk h' vs' (a.std bs).1 := by
  suffices hh : wpV (a.exec S P vs) h fun r h' => r.2 = (a.std bs).2 ∧ EnvOk h' r.1 (a.std bs).1 by
    obtain ⟨⟨vs', ans⟩, h', e1, rfl, h2⟩ := hh
    exact ⟨vs', h', e1, h2⟩
  have pos := fun (v : BV) (d : Nat) => IsPos.begin_add hw v d
  cases a with
  | call c =>
    obtain ⟨vs', ans, h', ls', e1, sp, ok⟩ := C65_step_partial hw S P h vs bs c e hpre (call_lim hpl hs hc)
    obtain ⟨rfl, rfl⟩ := sp.unique (spec_std bs c hpl)
    exact ⟨_, _, e1, rfl, ok⟩
  | insert i d x =>
    obtain ⟨v, hv, _, r⟩ := e.get hpre.1
    refine wpV_withVec hv ?_
    rw [wpV_bind]
    refine wpV_insert S hw e.wf r (pos v d) hpre.2 hc ?_
    intro v' it h' s r' p
    exact wpV_pure ⟨by dsimp only; rw [p.diff]; rfl, e.update hv s (.inl rfl) r'⟩
  | insertN i d n x =>
    obtain ⟨v, hv, _, r⟩ := e.get hpre.1
    refine wpV_withVec hv ?_
    rw [wpV_bind]
    have key : (n = 0 → False) → (Op.insertN i d n x : Op w).NoFullWord w bs ∨ S.FullShiftOk := fun h0 => hc.imp (fun hx => hx.resolve_left h0) id
    by_cases h0 : n = 0
    · subst h0
      unfold BV.insertN
      rw [wpV_bind]
      refine wpV_onMem ?_
      obtain ⟨q1, q2⟩ := pos v d
      rw [wp_distance]
      refine ⟨by rw [BV.begin_addr]; unfold Call.it; omega, ?_⟩
      rw [if_pos rfl]
      refine wpV_pure (wpV_pure ⟨?_, e.update hv (VStep.refl e.wf _) (.inl rfl) (by simpa using r)⟩)
      dsimp only
      rw [show (Call.it v d : BitIter w).addr - v.begin.addr = (d : Int) by rw [BV.begin_addr]; unfold Call.it; omega, (pos v d).diff]; rfl
    · refine wpV_insertN S hw e.wf r (pos v d) hpre.2 (floatOk_small hw hs) (key h0) ?_
      intro v' it h' s r' p
      exact wpV_pure ⟨by dsimp only; rw [p.diff]; rfl, e.update hv s (.inl rfl) r'⟩
  | insertRange i d j a b =>
    obtain ⟨hi, hd, hj, hij, hab, hb⟩ := hpre
    obtain ⟨v, hv, _, r⟩ := e.get hi
    obtain ⟨o, ho, _, ro⟩ := e.get hj
    have hlen : (((at' bs j).take b).drop a).length = b - a := by simp; omega
    refine wpV_withVec hv (wpV_withVec ho ?_)
    rw [wpV_bind]
    by_cases h0 : a = b
    · subst h0
      unfold BV.insertRange
      rw [wpV_bind]
      refine wpV_onMem ?_
      obtain ⟨q1, q2⟩ := pos v d
      rw [wp_distance]
      refine ⟨by rw [BV.begin_addr]; unfold Call.it; omega, ?_⟩
      rw [wpV_bind]
      refine wpV_onMem ?_
      rw [wp_distance]
      refine ⟨Int.le_refl _, ?_⟩
      rw [if_pos (by rw [Int.sub_self]; rfl)]
      refine wpV_pure (wpV_pure ⟨?_, e.update hv (VStep.refl e.wf _) (.inl rfl) (by simpa using r)⟩)
      dsimp only
      rw [show (Call.it v d : BitIter w).addr - v.begin.addr = (d : Int) by rw [BV.begin_addr]; unfold Call.it; omega, (pos v d).diff]; rfl
    · refine wpV_insertRange S hw e.wf r (pos v d) hd (ro.holdsSeq hw hab hb)
        (ro.outside hw (e.sep i j v o hv ho hij) hb) (by rw [hlen]; exact floatOk_small hw hs)
        (by rw [hlen]; exact hc.imp (fun hx => hx.resolve_left h0) id) ?_
      intro v' it h' s r' p
      exact wpV_pure ⟨by dsimp only; rw [p.diff]; rfl, e.update hv s (.inl rfl) r'⟩
  | erase i d =>
    obtain ⟨v, hv, _, r⟩ := e.get hpre.1
    refine wpV_withVec hv ?_
    rw [wpV_bind]
    refine wpV_erase S hw e.wf r (pos v d) hpre.2 hc ?_
    intro v' it h' s r' p
    exact wpV_pure ⟨by dsimp only; rw [p.diff]; rfl, e.update hv s (.inl rfl) r'⟩
  | eraseRange i a b =>
    obtain ⟨v, hv, _, r⟩ := e.get hpre.1
    refine wpV_withVec hv ?_
    rw [wpV_bind]
    refine wpV_eraseRange S hw e.wf r (pos v a) (pos v b) hpre.2.1 hpre.2.2 (.inr (lt_of_le_of_lt (Nat.sub_le _ _) hs)) hc ?_
    intro v' it h' s r' p
    exact wpV_pure ⟨by dsimp only; rw [p.diff]; rfl, e.update hv s (.inl rfl) r'⟩
  | flip i k =>
    obtain ⟨v, hv, _, r⟩ := e.get hpre.1
    refine wpV_withVec hv ?_
    rw [wpV_bind]
    refine wpV_get S hw r hpre.2 ?_
    rw [wpV_bind]
    refine wpV_set S hw e.wf r hpre.2 ?_
    intro h' s r'
    refine wpV_pure ⟨rfl, e.update hv s (.inl rfl) ?_⟩
    rwa [List.getElem?_eq_getElem hpre.2]
  | at_ i k =>
    obtain ⟨v, hv, _, r⟩ := e.get hpre
    refine wpV_withVec hv ?_
    have := C36_at hw S h v _ r k
    by_cases hk : k < (at' bs i).length
    · rw [dif_pos hk] at this
      refine ⟨(vs, .bool (at' bs i)[k]), h, by simp only [this], ?_, e⟩
      show Ans.bool _ = if _ then _ else _
      rw [if_pos hk, List.getElem?_eq_getElem hk]; rfl
    · rw [dif_neg hk] at this
      refine ⟨(vs, .unit), h, by simp only [this], ?_, e⟩
      show Ans.unit = if _ then _ else _
      rw [if_neg hk]

theorem failsV_withVec {α : Type} {vs : List BV} {i : Nat} {f : BV → V w α} {h : Heap w} {v : BV} {x : Stop} (hv : vs[i]? = some v)
    (hf : failsV (f v) h x) : failsV (withVec vs i f) h x := by
  unfold withVec
  rw [hv]
  exact hf

/-- A valid call that shifts a whole word is undefined for words that are not promoted. -/
theorem act_bad (hw : 0 < w) (P : Policy) {h : Heap w} {vs : List BV} {bs : List (List Bool)} (e : EnvOk h vs bs) (a : Act w)
    (hpre : a.Pre bs) (hs : a.Size bs) (hc : ¬ a.Calm bs) : a.exec (Unpromoted w) P vs h = .error (.ub .overshift) := by
  have pos := fun (v : BV) (d : Nat) => IsPos.begin_add hw v d
  cases a with
  | call c =>
    cases c with
    | copyBackward j a b i d =>
      have hc' := not_not.1 hc
      obtain ⟨c1, c2, c3⟩ := hc'
      obtain ⟨p1, p2, hov⟩ := hpre
      obtain ⟨o, ho, ro, hs⟩ := e.source hw p1
      obtain ⟨v, hv, rv, hs2⟩ := e.source hw p2
      refine failsV_withVec ho (failsV_withVec hv (failsV_bind_left (failsV_onMem ?_)))
      have hl := slice_length (at' bs j) (a := a) p1.2.2
      have hlen := hs.lenEq
      have q1 := (pos v d).2
      have q2 := (pos v (d + (b - a))).2
      refine (C18_copy_backward_exact h.mem _ _ _ hs.range (pos v (d + (b - a))).1 ?_ (e.overlapB hw hv ho rv ro p1.2.1 p1.2.2 p2.2.2 hov)).2 ?_
      · intro x h3 h4
        refine hs2.range.mapped x ?_ h4
        have h7 : (Call.it v d : BitIter w).addr = _ := (pos v d).2
        have := p1.2.1
        have h8 : (Call.it o a : BitIter w).addr = _ := (pos o a).2
        have h9 : (Call.it o b : BitIter w).addr = _ := (pos o b).2
        unfold len at h3
        omega
      · unfold Call.it
        rw [(pos o a).eq hw, (pos o b).eq hw, (pos v (d + (b - a))).eq hw]
        exact ⟨c1, c2, by dsimp only; omega⟩
    | reverse i a b =>
      have hc' := not_not.1 hc
      obtain ⟨c1, c2⟩ := hc'
      obtain ⟨v, hv, rv, hs⟩ := e.source hw hpre
      refine failsV_withVec hv (failsV_bind_left (failsV_onMem ?_))
      have hlt : a < b := by
        rcases Nat.lt_or_eq_of_le hpre.2.1 with hx | hx
        · exact hx
        · subst hx; exact absurd (by rw [c2]; exact Nat.mul_mod_left _ _) c1
      have q1 := (pos v a).2
      have q2 := (pos v b).2
      refine (C18_reverse_exact h.mem _ _ hs.range ?_).2 ⟨fun h6 => c1 ((pos v a).pos_zero.1 h6), ?_⟩
      · unfold Call.it; omega
      · unfold Call.it
        rw [q2, (pos v a).eq hw]
        have h6 : (v.vec.ptr + ((a / w : Nat) : Int) + 1) * (w : Int) = v.vec.ptr * (w : Int) + (((a / w + 1) * w : Nat) : Int) := by
          push_cast; ring
        dsimp only
        rw [h6, ← c2]
    | _ => exact absurd trivial hc
  | insert i d x =>
    obtain ⟨c1, c2, c3⟩ := not_not.1 hc
    obtain ⟨v, hv, _, r⟩ := e.get hpre.1
    exact failsV_withVec hv (failsV_bind_left (failsV_insert hw e.wf r (pos v d) hpre.2 c1 c2 c3))
  | insertN i d n x =>
    obtain ⟨c0, hc⟩ := not_or.1 hc
    obtain ⟨c1, c2, c3⟩ := not_not.1 hc
    obtain ⟨v, hv, _, r⟩ := e.get hpre.1
    exact failsV_withVec hv (failsV_bind_left (failsV_insertN hw e.wf r (pos v d) hpre.2 (floatOk_small hw hs) (by omega) c1 c2 c3))
  | insertRange i d j a b =>
    obtain ⟨c0, hc⟩ := not_or.1 hc
    obtain ⟨c1, c2, c3⟩ := not_not.1 hc
    obtain ⟨hi, hd, hj, hij, hab, hb⟩ := hpre
    obtain ⟨v, hv, _, r⟩ := e.get hi
    obtain ⟨o, ho, _, ro⟩ := e.get hj
    have hlen : (((at' bs j).take b).drop a).length = b - a := by simp; omega
    refine failsV_withVec hv (failsV_withVec ho (failsV_bind_left ?_))
    exact failsV_insertRange hw e.wf r (pos v d) hd (ro.holdsSeq hw hab hb) (by rw [hlen]; exact floatOk_small hw hs) (by
          intro hx; rw [hx] at hlen; simp at hlen; omega) c1 (by rw [hlen]; exact c2) (by rw [hlen]; exact c3)
  | erase i d =>
    obtain ⟨c1, c2, c3⟩ := not_not.1 hc
    obtain ⟨v, hv, _, r⟩ := e.get hpre.1
    exact failsV_withVec hv (failsV_bind_left (failsV_erase hw r (pos v d) c1 c2 c3))
  | eraseRange i a b =>
    obtain ⟨c1, c2, c3, c4⟩ := not_not.1 hc
    obtain ⟨v, hv, _, r⟩ := e.get hpre.1
    exact failsV_withVec hv (failsV_bind_left (failsV_eraseRange hw r (pos v a) (pos v b) c3 c1 c2 c4))
  | flip i k => exact absurd trivial hc
  | at_ i k => exact absurd trivial hc

/-! ### Whole tests -/

theorem checks_ok (hw : 0 < w) (S : ShiftSem w) {h : Heap w} {vs : List BV} {bs : List (List Bool)} (e : EnvOk h vs bs) (a b : Ans)
    (cs : List Check) (hc : ∀ c ∈ cs, c.Whole bs) : runChecks S vs bs a b cs h = .ok (true, h) := by
  induction cs with
  | nil => rfl
  | cons c cs ih =>
    have h1 := hc c List.mem_cons_self
    have ih := ih fun c' hm => hc c' (List.mem_cons_of_mem _ hm)
    unfold runChecks
    cases c with
    | all i =>
      rw [runV_bind_ok (check_all hw S e h1 a b), runV_bind_ok ih]
      rfl
    | before i => exact h1.elim
    | after i => exact h1.elim

theorem run_ok (hw : 0 < w) (S : ShiftSem w) (P : Policy) (p : Prog w) {h : Heap w} {vs : List BV} {bs : List (List Bool)} (e : EnvOk h vs bs)
    (hv : Valid p bs) (hc : Calm p bs ∨ S.FullShiftOk) :
    ∃ vs' h', run S P p vs bs h = .ok (((vs', after p bs), true), h') ∧ EnvOk h' vs' (after p bs) := by
  induction p generalizing h vs bs with
  | nil => exact ⟨vs, h, rfl, e⟩
  | cons f fs ih =>
    obtain ⟨v1, v2⟩ := hv
    obtain ⟨vs1, h1, e1, ok1⟩ := act_ok hw S P e (f bs).act v1.plain v1.pre v1.size (hc.imp (fun x => x.1) id)
    obtain ⟨vs2, h2, e2, ok2⟩ := ih ok1 v2 (hc.imp (fun x => x.2) id)
    refine ⟨vs2, h2, ?_, ok2⟩
    unfold run
    rw [runV_bind_ok e1]
    dsimp only
    rw [runV_bind_ok (checks_ok hw S ok1 _ _ _ v1.checks), runV_bind_ok e2]
    show Except.ok _ = _
    simp only [decide_true, Bool.or_true, Bool.and_self]
    rfl

theorem run_bad (hw : 0 < w) (P : Policy) (p : Prog w) {h : Heap w} {vs : List BV} {bs : List (List Bool)} (e : EnvOk h vs bs)
    (hv : Valid p bs) (hc : ¬ Calm p bs) : run (Unpromoted w) P p vs bs h = .error (.ub .overshift) := by
  induction p generalizing h vs bs with
  | nil => exact absurd trivial hc
  | cons f fs ih =>
    obtain ⟨v1, v2⟩ := hv
    unfold run
    by_cases h1 : (f bs).act.Calm bs
    · obtain ⟨vs1, h1, e1, ok1⟩ := act_ok hw (Unpromoted w) P e (f bs).act v1.plain v1.pre v1.size (.inl h1)
      rw [runV_bind_ok e1]
      dsimp only
      rw [runV_bind_ok (checks_ok hw _ ok1 _ _ _ v1.checks), Obj.runV_bind_error (ih ok1 v2 fun hx => hc ⟨by assumption, hx⟩)]
    · rw [Obj.runV_bind_error (act_bad hw P e _ v1.pre v1.size h1)]

/-! ### Sizes -/

theorem at'_set (bs : List (List Bool)) (i k : Nat) (x : List Bool) (hi : i < bs.length) :
    at' (bs.set i x) k = if i = k then x else at' bs k := by
  unfold Op.at'
  rw [List.getElem?_set]
  split_ifs with h1
  · rfl
  · rfl

/-- The same number of vectors, of the same sizes. -/
def Same (bs bs' : List (List Bool)) : Prop := bs'.length = bs.length ∧ ∀ i, sz bs' i = sz bs i

theorem Same.refl (bs : List (List Bool)) : Same bs bs := ⟨rfl, fun _ => rfl⟩

theorem Same.trans {a b c : List (List Bool)} (h1 : Same a b) (h2 : Same b c) : Same a c :=
  ⟨h2.1.trans h1.1, fun i => (h2.2 i).trans (h1.2 i)⟩

/-- Perhaps more vectors; the old ones have the same sizes. -/
def Ext (bs bs' : List (List Bool)) : Prop := bs.length ≤ bs'.length ∧ ∀ i, i < bs.length → sz bs' i = sz bs i

theorem Ext.refl (bs : List (List Bool)) : Ext bs bs := ⟨Nat.le_refl _, fun _ _ => rfl⟩

theorem Ext.trans {a b c : List (List Bool)} (h1 : Ext a b) (h2 : Ext b c) : Ext a c :=
  ⟨h1.1.trans h2.1, fun i hi => (h2.2 i (lt_of_lt_of_le hi h1.1)).trans (h1.2 i hi)⟩

theorem Same.ext {a b : List (List Bool)} (h : Same a b) : Ext a b := ⟨by rw [h.1], fun i _ => h.2 i⟩

theorem same_set (bs : List (List Bool)) {i : Nat} (hi : i < bs.length) {x : List Bool} (hx : x.length = (at' bs i).length) : Same bs (bs.set i x) := by
  refine ⟨List.length_set, fun k => ?_⟩
  unfold sz
  rw [at'_set _ _ _ _ hi]
  split_ifs with h1
  · rw [hx, h1]
  · rfl

theorem same_splice (bs : List (List Bool)) {i d : Nat} {s : List Bool} (hi : i < bs.length) (hs : d + s.length ≤ (at' bs i).length) :
    Same bs (bs.set i (splice (at' bs i) d s)) := same_set bs hi (splice_length _ _ hs)

/-- Not a member of `bit_vector` that changes sizes. -/
def _root_.BitLib.Call.Alg : Call w → Prop
  | .vec _ => False
  | _ => True

/-- The algorithms change no sizes. -/
theorem same_std (bs : List (List Bool)) (c : Call w) (hc : c.Alg) (hp : c.Pre bs) : Same bs (stdCall bs c).1 := by
  cases c with
  | vec op => exact hc.elim
  | copy j a b i d =>
    obtain ⟨p1, p2, -⟩ := hp
    exact same_splice bs p2.1 (by rw [slice_length _ p1.2.2]; exact p2.2.2)
  | move j a b i d =>
    obtain ⟨p1, p2, -⟩ := hp
    exact same_splice bs p2.1 (by rw [slice_length _ p1.2.2]; exact p2.2.2)
  | copyBackward j a b i d =>
    obtain ⟨p1, p2, -⟩ := hp
    exact same_splice bs p2.1 (by rw [slice_length _ p1.2.2]; exact p2.2.2)
  | fill i a b x =>
    have := hp.2.1
    have := hp.2.2
    exact same_splice bs hp.1 (by rw [List.length_replicate]; omega)
  | reverse i a b =>
    have := hp.2.1
    have := hp.2.2
    exact same_splice bs hp.1 (by rw [List.length_reverse, slice_length _ hp.2.2]; omega)
  | rotate i a k b =>
    obtain ⟨p1, h1, h2⟩ := hp
    have := p1.2.1
    have := p1.2.2
    exact same_splice bs p1.1 (by rw [List.length_append, slice_length _ (by omega), slice_length _ (by omega)]; omega)
  | shiftLeft i a b n =>
    obtain ⟨h1, h2, h3⟩ := hp
    unfold stdCall
    dsimp only
    split_ifs
    · exact .refl _
    · exact .refl _
    · exact same_splice bs h1 (by rw [slice_length _ h3]; omega)
  | shiftRight i a b n =>
    obtain ⟨h1, h2, h3⟩ := hp
    unfold stdCall
    dsimp only
    split_ifs
    · exact .refl _
    · exact .refl _
    · exact same_splice bs h1 (by rw [slice_length _ (by omega)]; omega)
  | swapRanges i a b j k =>
    obtain ⟨p1, p2, -⟩ := hp
    have a1 := p1.2.1
    have a2 := p1.2.2
    have a3 := p2.2.2
    have s1 : Same bs (bs.set i (splice (at' bs i) a (slice (at' bs j) k (k + (b - a))))) :=
      same_splice bs p1.1 (by rw [slice_length _ a3]; omega)
    refine s1.trans (same_splice _ (by rw [s1.1]; exact p2.1) ?_)
    rw [slice_length _ a2]
    have := s1.2 j
    unfold sz at this
    rw [this]
    exact a3
  | transform op f j a b i d =>
    obtain ⟨-, p1, p2, -⟩ := hp
    exact same_splice bs p2.1 (by rw [List.length_map, slice_length _ p1.2.2]; exact p2.2.2)
  | transform2 op f j a b j2 c i d =>
    obtain ⟨-, p1, p2, p3, -⟩ := hp
    exact same_splice bs p3.1 (by rw [List.length_zipWith, slice_length _ p1.2.2, slice_length _ p2.2.2]; have := p3.2.2; omega)
  | _ => exact .refl _

/-! ### Composition -/

theorem always_append (p : List (List Bool) → Step w → Prop) (xs ys : Prog w) (bs : List (List Bool)) :
    Always p (xs ++ ys) bs ↔ Always p xs bs ∧ Always p ys (after xs bs) := by
  induction xs generalizing bs with
  | nil => simp [Always, after]
  | cons x xs ih => simp only [List.cons_append, Always, after, ih, and_assoc]

theorem after_append (xs ys : Prog w) (bs : List (List Bool)) : after (xs ++ ys) bs = after ys (after xs bs) := by
  induction xs generalizing bs with
  | nil => rfl
  | cons x xs ih => simp only [List.cons_append, after, ih]

theorem always_and (p q : List (List Bool) → Step w → Prop) (xs : Prog w) (bs : List (List Bool)) :
    Always (fun bs s => p bs s ∧ q bs s) xs bs ↔ Always p xs bs ∧ Always q xs bs := by
  induction xs generalizing bs with
  | nil => simp [Always]
  | cons x xs ih => simp only [Always, ih]; tauto

/-- A call of an algorithm in front of statements that are judged by sizes. -/
theorem alg_cons (p : List (List Bool) → Step w → Prop) {f : List (List Bool) → Step w} {fs : Prog w} {bs : List (List Bool)} {c : Call w}
    {answer : Bool} {cs : List Check} (hf : f bs = ⟨.call c, answer, cs⟩) (ha : c.Alg) (hpre : c.Pre bs) {C1 C2 : Prop}
    (hp : p bs ⟨.call c, answer, cs⟩ ↔ C1)
    (rest : ∀ bs', Same bs bs' → (Always p fs bs' ↔ C2) ∧ Same bs' (after fs bs')) :
    (Always p (f :: fs) bs ↔ C1 ∧ C2) ∧ Same bs (after (f :: fs) bs) := by
  have s1 := same_std bs c ha hpre
  obtain ⟨r1, r2⟩ := rest _ s1
  unfold Always after
  rw [hf]
  exact ⟨and_congr hp r1, s1.trans r2⟩

theorem alg_nil (p : List (List Bool) → Step w → Prop) (bs : List (List Bool)) : (Always p [] bs ↔ True) ∧ Same bs (after ([] : Prog w) bs) :=
  ⟨Iff.rfl, .refl _⟩

/-- A loop whose rounds are good, in every state with the same sizes, if `C` holds for the draw. -/
theorem loop_iff {D : Type} (p : List (List Bool) → Step w → Prop) (iter : Nat → D → Prog w) (C : Nat → D → Prop) (bs0 : List (List Bool))
    (ds : List D) (i : Nat)
    (step : ∀ k (hk : k < ds.length) bs, Ext bs0 bs → (Always p (iter (i + k) ds[k]) bs ↔ C (i + k) ds[k]) ∧ Ext bs (after (iter (i + k) ds[k]) bs))
    (bs : List (List Bool)) (hb : Ext bs0 bs) :
    (Always p (loop iter i ds) bs ↔ ∀ k (hk : k < ds.length), C (i + k) ds[k]) ∧ Ext bs (after (loop iter i ds) bs) := by
  induction ds generalizing i bs with
  | nil => exact ⟨⟨fun _ k hk => absurd hk (by simp), fun _ => trivial⟩, .refl _⟩
  | cons d ds ih =>
    obtain ⟨h1, h2⟩ := step 0 (by simp) bs hb
    obtain ⟨h3, h4⟩ := ih (i + 1) (fun k hk bs' hb' => by
      have := step (k + 1) (by simp; omega) bs' hb'
      rwa [show i + (k + 1) = i + 1 + k by omega] at this) (after (iter i d) bs) (hb.trans h2)
    unfold loop
    rw [always_append, after_append]
    refine ⟨?_, h2.trans h4⟩
    constructor
    · rintro ⟨h5, h6⟩ k hk
      rcases k with _ | k
      · exact h1.1 h5
      · have := h3.1 h6 k (by simp at hk; omega)
        rw [show i + 1 + k = i + (k + 1) by omega] at this
        exact this
    · intro hh
      refine ⟨h1.2 (hh 0 (by simp)), h3.2 fun k hk => ?_⟩
      have := hh (k + 1) (by simp; omega)
      rwa [show i + (k + 1) = i + 1 + k by omega] at this

/-- A loop of which every round is good in every state with the same sizes. -/
theorem loop_always {D : Type} (p : List (List Bool) → Step w → Prop) (iter : Nat → D → Prog w) (bs0 : List (List Bool)) (ds : List D) (i : Nat)
    (step : ∀ k (hk : k < ds.length) bs, Ext bs0 bs → Always p (iter (i + k) ds[k]) bs ∧ Ext bs (after (iter (i + k) ds[k]) bs))
    (bs : List (List Bool)) (hb : Ext bs0 bs) : Always p (loop iter i ds) bs ∧ Ext bs (after (loop iter i ds) bs) := by
  have := loop_iff p iter (fun _ _ => True) bs0 ds i (fun k hk bs' hb' => ⟨iff_true_intro (step k hk bs' hb').1, (step k hk bs' hb').2⟩) bs hb
  exact ⟨this.1.2 fun _ _ => trivial, this.2⟩

/-- A sequence of statements that keep the sizes. -/
theorem steps_iff {D : Type} (p : List (List Bool) → Step w → Prop) (f : D → Prog w) (C : D → Prop) (bs0 : List (List Bool)) (ds : List D)
    (step : ∀ d ∈ ds, ∀ bs, Same bs0 bs → (Always p (f d) bs ↔ C d) ∧ Same bs (after (f d) bs)) (bs : List (List Bool)) (hb : Same bs0 bs) :
    (Always p (ds.flatMap f) bs ↔ ∀ d ∈ ds, C d) ∧ Same bs (after (ds.flatMap f) bs) := by
  induction ds generalizing bs with
  | nil => exact ⟨⟨fun _ d hd => by simp at hd, fun _ => trivial⟩, .refl _⟩
  | cons d ds ih =>
    obtain ⟨h1, h2⟩ := step d List.mem_cons_self bs hb
    obtain ⟨h3, h4⟩ := ih (fun d' hd => step d' (List.mem_cons_of_mem _ hd)) _ (hb.trans h2)
    rw [List.flatMap_cons, always_append, after_append, h1, h3]
    exact ⟨by simp, h2.trans h4⟩

theorem steps_always {D : Type} (p : List (List Bool) → Step w → Prop) (f : D → Prog w) (bs0 : List (List Bool)) (ds : List D)
    (step : ∀ d ∈ ds, ∀ bs, Same bs0 bs → Always p (f d) bs ∧ Same bs (after (f d) bs)) (bs : List (List Bool)) (hb : Same bs0 bs) :
    Always p (ds.flatMap f) bs ∧ Same bs (after (ds.flatMap f) bs) := by
  have := steps_iff p f (fun _ => True) bs0 ds (fun d hd bs' hb' => ⟨iff_true_intro (step d hd bs' hb').1, (step d hd bs' hb').2⟩) bs hb
  exact ⟨this.1.2 fun _ _ => trivial, this.2⟩

/-- Work on a copy. -/
theorem onCopy_iff (p : List (List Bool) → Step w → Prop) (body : Prog w) (C : Prop) (bs : List (List Bool)) (idx : Nat) (hi : idx < bs.length)
    (hp : ∀ bs s, (∃ op : Op w, s = ⟨.call (.vec op), false, []⟩ ∧ (Act.call (.vec op)).Plain ∧ op.Pre bs ∧ op.SizeLim bs) → p bs s)
    (hb : (Always p body (bs ++ [at' bs idx]) ↔ C) ∧ Same (bs ++ [at' bs idx]) (after body (bs ++ [at' bs idx]))) :
    (Always p (onCopy idx body) bs ↔ C) ∧ Ext bs (after (onCopy idx body) bs) := by
  obtain ⟨h1, h2⟩ := hb
  have hl := h2.1
  rw [List.length_append, List.length_singleton] at hl
  unfold onCopy
  rw [List.cons_append]
  constructor
  · show p bs _ ∧ Always p (body ++ _) (bs ++ [at' bs idx]) ↔ C
    rw [always_append, h1]
    constructor
    · exact fun hx => hx.2.1
    · refine fun hc => ⟨hp _ _ ⟨_, rfl, trivial, hi, trivial⟩, hc, hp _ _ ⟨_, rfl, trivial, ?_, trivial⟩, trivial⟩
      show (after body (bs ++ [at' bs idx])).length - 1 < _
      omega
  · show Ext bs (after (body ++ _) (bs ++ [at' bs idx]))
    rw [after_append]
    show Ext bs ((after body (bs ++ [at' bs idx])).set _ [])
    refine ⟨by rw [List.length_set]; omega, fun i hi' => ?_⟩
    unfold sz
    rw [at'_set _ _ _ _ (by omega), if_neg (by omega)]
    have := h2.2 i
    unfold sz at this
    rw [this]
    unfold Op.at'
    rw [List.getElem?_append_left hi']

/-! ### Shifts -/

/-- Two lists of lists that agree from position `i` on. -/
structure From (i : Nat) (ls bs : List (List Bool)) : Prop where
  len : ls.length = bs.length
  rest : ∀ k, i ≤ k → at' ls k = at' bs k

theorem splice_take (l s t : List Bool) {a m : Nat} (ha : a ≤ l.length) (hm : m = a + s.length) :
    (splice l a (s ++ t)).take m = (splice l a s).take m := by
  subst hm
  have hl : (l.take a ++ s).length = a + s.length := by rw [List.length_append, List.length_take]; omega
  unfold splice
  rw [List.append_assoc (l.take a) (s ++ t), List.append_assoc s t, ← List.append_assoc (l.take a) s, List.take_left' hl, List.take_left' hl]

theorem splice_drop (l s t : List Bool) {a m : Nat} (hm : m = a + t.length) (hl : m ≤ l.length) :
    (splice l a (t ++ s)).drop m = (splice l m s).drop m := by
  subst hm
  unfold splice
  have h1 : (l.take a ++ t).length = a + t.length := by rw [List.length_append, List.length_take]; omega
  have h3 : (l.take (a + t.length)).length = a + t.length := by rw [List.length_take]; omega
  rw [← List.append_assoc (l.take a) t, List.append_assoc (l.take a ++ t), List.drop_left' h1, List.length_append, ← Nat.add_assoc,
    List.append_assoc, List.drop_left' h3]

theorem run_append_ok {S : ShiftSem w} {P : Policy} (p q : Prog w) {vs vs1 : List BV} {bs bs1 : List (List Bool)} {h h1 h2 : Heap w} {b1 b2 : Bool}
    {t : List BV × List (List Bool)} (e1 : run S P p vs bs h = .ok (((vs1, bs1), b1), h1)) (e2 : run S P q vs1 bs1 h1 = .ok ((t, b2), h2)) :
    run S P (p ++ q) vs bs h = .ok ((t, b1 && b2), h2) := by
  induction p generalizing vs bs h b1 with
  | nil =>
    cases e1
    simpa using e2
  | cons f fs ih =>
    unfold run at e1
    obtain ⟨r, ha, e3, e4⟩ := runV_bind_inv e1
    obtain ⟨c, hb, e5, e6⟩ := runV_bind_inv e4
    obtain ⟨u, hc, e7, e8⟩ := runV_bind_inv e6
    obtain ⟨⟨u1, u2⟩, u3⟩ := u
    have e9 : (u1, u2) = (vs1, bs1) ∧ ((!(f bs).answer || decide (r.2 = ((f bs).act.std bs).2)) && c && u3) = b1 ∧ hc = h1 := by
      cases e8
      exact ⟨rfl, rfl, rfl⟩
    obtain ⟨e9, e10, rfl⟩ := e9
    cases e9
    have := ih e7
    rw [List.cons_append]
    unfold run
    rw [runV_bind_ok e3, runV_bind_ok e5, runV_bind_ok this]
    show Except.ok _ = _
    rw [← e10]
    simp only [Bool.and_assoc]

theorem run_append_left {S : ShiftSem w} {P : Policy} (p q : Prog w) {vs : List BV} {bs : List (List Bool)} {h : Heap w} {x : Stop}
    (e1 : run S P p vs bs h = .error x) : run S P (p ++ q) vs bs h = .error x := by
  induction p generalizing vs bs h with
  | nil => cases e1
  | cons f fs ih =>
    rw [List.cons_append]
    unfold run at e1 ⊢
    cases hx : (f bs).act.exec S P vs h with
    | error y =>
      rw [Obj.runV_bind_error hx] at e1 ⊢
      exact e1
    | ok r =>
      rw [runV_bind_ok hx] at e1 ⊢
      cases hy : runChecks S r.1.1 ((f bs).act.std bs).1 r.1.2 ((f bs).act.std bs).2 (f bs).checks r.2 with
      | error y =>
        rw [Obj.runV_bind_error hy] at e1 ⊢
        exact e1
      | ok c =>
        rw [runV_bind_ok hy] at e1 ⊢
        cases hz : run S P fs r.1.1 ((f bs).act.std bs).1 c.2 with
        | error y =>
          rw [Obj.runV_bind_error hz] at e1
          cases e1
          rw [Obj.runV_bind_error (ih hz)]
        | ok u =>
          rw [runV_bind_ok hz] at e1
          cases e1

theorem run_append_right {S : ShiftSem w} {P : Policy} (p q : Prog w) {vs vs1 : List BV} {bs bs1 : List (List Bool)} {h h1 : Heap w} {b1 : Bool}
    {x : Stop} (e1 : run S P p vs bs h = .ok (((vs1, bs1), b1), h1)) (e2 : run S P q vs1 bs1 h1 = .error x) :
    run S P (p ++ q) vs bs h = .error x := by
  induction p generalizing vs bs h b1 with
  | nil =>
    cases e1
    simpa using e2
  | cons f fs ih =>
    unfold run at e1
    obtain ⟨r, ha, e3, e4⟩ := runV_bind_inv e1
    obtain ⟨c, hb, e5, e6⟩ := runV_bind_inv e4
    obtain ⟨u, hc, e7, e8⟩ := runV_bind_inv e6
    obtain ⟨⟨u1, u2⟩, u3⟩ := u
    cases e8
    rw [List.cons_append]
    unfold run
    rw [runV_bind_ok e3, runV_bind_ok e5, Obj.runV_bind_error (ih e7)]

/-- A round of a shift test: what is specified is the same on both sides. -/
theorem shift_round (hw : 0 < w) (S : ShiftSem w) (P : Policy) {h : Heap w} {vs : List BV} {ls bs : List (List Bool)} {i : Nat}
    (e : EnvOk h vs ls) (fr : From i ls bs) (hi : i < bs.length) (c : Call w) (ck : Check) (hpre : c.Pre ls) (hlim : c.Lim S ls)
    (std : ∀ ls' a, c.Spec ls ls' a → (stdCall bs c).2 = a ∧ From (i + 1) ls' (stdCall bs c).1 ∧ Same bs (stdCall bs c).1 ∧
      ∃ p : Nat, a = .pos (p : Int) ∧ p ≤ (at' ls' i).length ∧
        ((ck = .before i ∧ (at' ls' i).take p = (at' (stdCall bs c).1 i).take p) ∨ (ck = .after i ∧ (at' ls' i).drop p = (at' (stdCall bs c).1 i).drop p))) :
    ∃ vs' h' ls', run S P [fun _ => ⟨.call (.size i), true, []⟩, fun _ => ⟨.call c, true, [ck]⟩] vs bs h =
      .ok (((vs', (stdCall bs c).1), true), h') ∧ EnvOk h' vs' ls' ∧ From (i + 1) ls' (stdCall bs c).1 ∧ Same bs (stdCall bs c).1 := by
  obtain ⟨v, hv, _, r⟩ := e.get (i := i) (by rw [fr.len]; exact hi)
  obtain ⟨vs', ans, h', ls', e1, sp, ok⟩ := C65_step_partial hw S P h vs ls c e hpre hlim
  obtain ⟨s1, s2, s3, p, rfl, hp, hck⟩ := std ls' ans sp
  obtain ⟨v', hv', _, r'⟩ := ok.get (i := i) (by rw [s2.len, s3.1]; exact hi)
  refine ⟨vs', h', ls', ?_, ok, s2, s3⟩
  have e0 : (Act.call (.size i) : Act w).exec S P vs h = .ok ((vs, .num ((at' bs i).length : Int)), h) := by
    show withVec vs i _ h = _
    unfold withVec
    rw [hv, ← fr.rest i (Nat.le_refl _), ← r.len]
    rfl
  have ec : ck.run S vs' (stdCall bs c).1 (.pos (p : Int)) (.pos (p : Int)) h' = .ok (true, h') := by
    rcases hck with ⟨rfl, hx⟩ | ⟨rfl, hx⟩
    · show withVec vs' i _ h' = _
      unfold withVec
      rw [hv']
      refine equalBits_ok hw S r' (a := 0) (b := p) ⟨BV.begin_valid hw v', by rw [BV.begin_addr]; omega⟩ (IsPos.begin_add hw v' p) (Nat.zero_le _) hp ?_
      rw [Int.toNat_natCast, ← hx]
      unfold slice
      rw [List.drop_zero]
    · show withVec vs' i _ h' = _
      unfold withVec
      rw [hv']
      refine equalBits_ok hw S r' (a := p) (b := (at' ls' i).length) (IsPos.begin_add hw v' p) ?_ hp (Nat.le_refl _) ?_
      · have := IsPos.begin_add hw v' (at' ls' i).length
        unfold BV.end
        rw [r'.len]
        exact this
      · rw [Int.toNat_natCast, ← hx]
        unfold slice
        rw [List.take_length]
  unfold run
  dsimp only
  rw [runV_bind_ok e0]
  have n1 : ∀ (vs : List BV) (bs : List (List Bool)) (a b : Ans) (h : Heap w), runChecks S vs bs a b [] h = .ok (true, h) := fun _ _ _ _ _ => rfl
  rw [runV_bind_ok (n1 _ _ _ _ _)]
  show ((run S P [fun _ => (⟨.call c, true, [ck]⟩ : Step w)] vs bs) >>= _) h = _
  unfold run
  dsimp only
  have e1' : (Act.call c).exec S P vs h = .ok ((vs', .pos (p : Int)), h') := e1
  have e3 : runChecks S vs' (stdCall bs c).1 (.pos (p : Int)) (stdCall bs c).2 [ck] h' = .ok (true, h') := by
    rw [s1]
    unfold runChecks
    rw [runV_bind_ok ec, runV_bind_ok (n1 _ _ _ _ _)]
    rfl
  have e4 : run S P [] vs' (stdCall bs c).1 h' = .ok (((vs', (stdCall bs c).1), true), h') := rfl
  have e5 : ((Act.call c).exec S P vs >>= fun r => runChecks S r.1 ((Act.call c).std bs).1 r.2 ((Act.call c).std bs).2 [ck] >>= fun c1 =>
      run S P [] r.1 ((Act.call c).std bs).1 >>= fun t =>
      (pure (t.1, (!true || decide (r.2 = ((Act.call c).std bs).2)) && c1 && t.2) : V w _)) h = .ok (((vs', (stdCall bs c).1), true), h') := by
    rw [runV_bind_ok e1']
    refine (runV_bind_ok e3).trans ((runV_bind_ok e4).trans ?_)
    show Except.ok _ = _
    have : decide (Ans.pos (p : Int) = ((Act.call c).std bs).2) = true := decide_eq_true (by exact s1.symm)
    rw [this]
    rfl
  rw [runV_bind_ok e5]
  show Except.ok _ = _
  have : decide (Ans.num ((at' bs i).length : Int) = ((Act.call (.size i) : Act w).std bs).2) = true := decide_eq_true rfl
  rw [this]
  rfl

/-- A loop over the vectors, each used in one round only. -/
theorem shift_loop {D : Type} (S : ShiftSem w) (P : Policy) (iter : Nat → D → Prog w) (R G : Nat → D → Prop)
    (good : ∀ i d h vs ls bs, EnvOk h vs ls → From i ls bs → i < bs.length → R (sz bs i) d → G (sz bs i) d →
      ∃ vs' h' ls' bs', run S P (iter i d) vs bs h = .ok (((vs', bs'), true), h') ∧ EnvOk h' vs' ls' ∧ From (i + 1) ls' bs' ∧ Same bs bs')
    (ds : List D) (i : Nat) {h : Heap w} {vs : List BV} {ls bs : List (List Bool)} (e : EnvOk h vs ls) (fr : From i ls bs)
    (hl : i + ds.length ≤ bs.length) (hr : ∀ k (hk : k < ds.length), R (sz bs (i + k)) ds[k]) :
    ((∀ k (hk : k < ds.length), G (sz bs (i + k)) ds[k]) → Passes S P (loop iter i ds) h vs bs) ∧
    (∀ x : Stop, (∀ i d h vs ls bs, EnvOk h vs ls → From i ls bs → i < bs.length → R (sz bs i) d → ¬ G (sz bs i) d →
      run S P (iter i d) vs bs h = .error x) → (∃ k, ∃ hk : k < ds.length, ¬ G (sz bs (i + k)) ds[k]) →
      run S P (loop iter i ds) vs bs h = .error x) := by
  induction ds generalizing i h vs ls bs with
  | nil => exact ⟨fun _ => ⟨vs, bs, h, rfl⟩, fun x _ ⟨k, hk, _⟩ => absurd hk (by simp)⟩
  | cons d ds ih =>
    rw [List.length_cons] at hl
    have r0 : R (sz bs i) d := hr 0 (by simp)
    have step : G (sz bs i) d → ∃ vs' h' ls' bs', run S P (iter i d) vs bs h = .ok (((vs', bs'), true), h') ∧ EnvOk h' vs' ls' ∧
        From (i + 1) ls' bs' ∧ Same bs bs' := good i d h vs ls bs e fr (by omega) r0
    have next : ∀ k (hk : k < ds.length), sz bs (i + 1 + k) = sz bs (i + (k + 1)) := fun k _ => by rw [show i + 1 + k = i + (k + 1) by omega]
    unfold loop
    constructor
    · intro hg
      obtain ⟨vs1, h1, ls1, bs1, e1, ok1, fr1, s1⟩ := step (hg 0 (by simp))
      obtain ⟨vs2, bs2, h2, e2⟩ := (ih (i + 1) ok1 fr1 (by rw [s1.1]; omega) (fun k hk => by
        rw [s1.2, next k hk]; exact hr (k + 1) (by simp; omega))).1 (fun k hk => by
        rw [s1.2, next k hk]; exact hg (k + 1) (by simp; omega))
      exact ⟨vs2, bs2, h2, run_append_ok _ _ e1 e2⟩
    · intro x hbad hex
      by_cases hg : G (sz bs i) d
      · obtain ⟨vs1, h1, ls1, bs1, e1, ok1, fr1, s1⟩ := step hg
        refine run_append_right _ _ e1 ((ih (i + 1) ok1 fr1 (by rw [s1.1]; omega) (fun k hk => by
          rw [s1.2, next k hk]; exact hr (k + 1) (by simp; omega))).2 x hbad ?_)
        obtain ⟨k, hk, hx⟩ := hex
        rcases k with _ | k
        · exact absurd hg hx
        · have hk' : k < ds.length := by simp at hk; omega
          exact ⟨k, hk', by rw [s1.2, next k hk']; exact hx⟩
      · exact run_append_left _ _ (hbad i d h vs ls bs e fr (by omega) r0 hg)

end BitLib.Tests
