import Verif.Props.Store
/-
C88: programs in which the bits behind the elements stay 0, so that `resize` does what it does for `std::vector<bool>`.
-/
namespace BitLib
variable {w : Nat}
open Store

theorem clean_alg (hw : 0 < w) {h : Heap w} {vs : List BV} {ss : List Store} (e : EnvAll h vs ss) {c : Call w} (hc : c.Algo)
    (hpre : c.Pre (ss.map Store.elems)) {ss' : List Store} {ans : Ans} (s : (Act.call c).Spec ss ss' ans) (hcl : CleanAll ss) : CleanAll ss' := by
  have hn := ((spec_alg hc).1 s).2
  intro t ht
  obtain ⟨j, hj⟩ := List.mem_iff_getElem?.1 ht
  have h1 : Store.at' ss' j = t := by unfold Store.at'; rw [hj]; rfl
  have h2 : (Store.at' ss j).n = t.n := by
    have := congrArg (·[j]?) hn
    rw [List.getElem?_map, List.getElem?_map, hj] at this
    obtain ⟨u, hu, hun⟩ := Option.map_eq_some_iff.1 this.symm
    unfold Store.at'
    rw [hu]
    exact hun
  rw [clean_iff]
  intro k hk
  have := C87_algorithms_keep_rest hw e hc hpre s j k (by omega)
  rw [h1] at this
  rw [this]
  exact clean_iff.1 (hcl.at' j) k (by omega)

/-- A vector without ones behind its elements is resized as the standard says. -/
theorem resize_clean (hw : 0 < w) {s : Store} (hc : s.Clean) (hf : s.n ≤ s.bits.length) (n : Nat) :
    (s.resize w n).elems = s.elems.take n ++ List.replicate (n - s.elems.length) false := by
  have hl : s.elems.length = s.n := by unfold Store.elems; rw [List.length_take]; omega
  have h1 := ceilW_ge hw n
  refine List.ext_getElem? fun k => ?_
  by_cases hk : k < n
  · rw [C87_resize_elements hw s n k hk, List.getElem?_append, List.length_take, hl]
    split_ifs with h2
    · rw [List.getElem?_take, if_pos hk]
      unfold Store.elems
      rw [List.getElem?_take, if_pos (by omega), List.getElem?_eq_getElem (show k < s.bits.length by omega)]; rfl
    · rw [List.getElem?_replicate, if_pos (by omega), clean_iff.1 hc k (by omega)]
  · rw [List.getElem?_eq_none, List.getElem?_eq_none]
    · rw [List.length_append, List.length_take, List.length_replicate, hl]; omega
    · unfold Store.elems
      rw [List.length_take]
      show min n _ ≤ _
      omega

/-- C88, one call: from vectors without ones behind their elements, a calm call has no undefined behaviour, does what the standard says, and
leaves no one behind the elements. -/
theorem C88_step (hw : 0 < w) (S : ShiftSem w) (P : Policy) (h : Heap w) (vs : List BV) (ls : List (List Bool)) (a : Act w)
    (e : CleanEnv h vs ls) (hpre : a.ListPre ls) (hlim : a.ListLim S ls) (hcalm : a.Calm ls) :
    ∃ vs' ans h' ls', a.exec S P vs h = .ok ((vs', ans), h') ∧ a.ListSpec ls ls' ans ∧ CleanEnv h' vs' ls' := by
  obtain ⟨ss, rfl, e, hc⟩ := e
  have res : ∀ i n, i < (ss.map Store.elems).length → (∀ x ∈ (Op.at' (ss.map Store.elems) i).drop n, x = false) →
      (ss.set i ((Store.at' ss i).resize w n)).map Store.elems =
        (ss.map Store.elems).set i ((Op.at' (ss.map Store.elems) i).take n ++ List.replicate (n - (Op.at' (ss.map Store.elems) i).length) false) ∧
      CleanAll (ss.set i ((Store.at' ss i).resize w n)) := by
    intro i n hi hx
    rw [List.length_map] at hi
    obtain ⟨v, _, _, r⟩ := e.get hi
    rw [at'_map_elems] at hx ⊢
    rw [List.map_set, resize_clean hw (CleanAll.at' hc i) r.fit n]
    exact ⟨rfl, CleanAll.set hc (clean_trim (CleanAll.at' hc i) hx)⟩
  cases a with
  | resize i n =>
    obtain ⟨vs', ans, h', ss', e1, s1, k1⟩ := C87_step hw S P h vs ss (.resize i n) e (by simpa [Act.ListPre, Act.Pre] using hpre) hlim
    obtain ⟨rfl, rfl⟩ := s1
    obtain ⟨r1, r2⟩ := res i n hpre hcalm
    exact ⟨vs', _, h', _, e1, ⟨r1, rfl⟩, _, rfl, k1, r2⟩
  | resizeVal i n x =>
    obtain ⟨vs', ans, h', ss', e1, s1, k1⟩ := C87_step hw S P h vs ss (.resizeVal i n x) e (by simpa [Act.ListPre, Act.Pre] using hpre) hlim
    obtain ⟨rfl, rfl⟩ := s1
    obtain ⟨c1, c2⟩ := hcalm
    obtain ⟨r1, r2⟩ := res i n hpre c1
    refine ⟨vs', _, h', _, e1, ⟨?_, rfl⟩, _, rfl, k1, r2⟩
    rcases c2 with rfl | c2
    · exact r1
    · rw [r1, Nat.sub_eq_zero_of_le c2]; rfl
  | call c =>
    obtain ⟨vs', ans, h', ss', e1, s1, s2, k1⟩ := C87_elements hw S P h vs ss c e hpre hlim
    refine ⟨vs', ans, h', _, e1, s2, ss', rfl, k1, ?_⟩
    have alg : c.Algo → CleanAll ss' := fun ha => clean_alg hw e ha hpre s1 hc
    cases c with
    | vec op =>
      obtain ⟨rfl, -⟩ := s1
      exact clean_member e hw hc op hpre hcalm
    | size i =>
      obtain ⟨rfl, -⟩ := s1
      exact hc
    | debugString i =>
      obtain ⟨rfl, -⟩ := s1
      exact hc
    | _ => exact alg trivial

/-- C88: a program of calm calls sees what the same program would see with `std::vector<bool>`, also where it calls `resize`. -/
theorem C88_program (hw : 0 < w) (S : ShiftSem w) (P : Policy) (h : Heap w) (vs : List BV) (ls : List (List Bool)) (as : List (Act w))
    (e : CleanEnv h vs ls) (hv : AlongL (fun ls a => a.ListPre ls ∧ a.ListLim S ls ∧ a.Calm ls) as ls) :
    ∃ vs' xs h' ls', runActs S P vs as h = .ok ((vs', xs), h') ∧ ListRun ls as ls' xs ∧ CleanEnv h' vs' ls' ∧
      ∀ l2 xs2, ListRun ls as l2 xs2 → l2 = ls' ∧ xs2 = xs := by
  suffices hh : ∃ vs' xs h' ls', runActs S P vs as h = .ok ((vs', xs), h') ∧ ListRun ls as ls' xs ∧ CleanEnv h' vs' ls' by
    obtain ⟨vs', xs, h', ls', e1, s1, k1⟩ := hh
    exact ⟨vs', xs, h', ls', e1, s1, k1, fun _ _ s2 => s2.unique s1⟩
  induction as generalizing h vs ls with
  | nil => exact ⟨vs, [], h, ls, rfl, .nil ls, e⟩
  | cons a as ih =>
    obtain ⟨vs1, x, h1, l1, e1, p1, k1⟩ := C88_step hw S P h vs ls a e hv.1.1 hv.1.2.1 hv.1.2.2
    obtain ⟨vs2, xs, h2, l2, e2, p2, k2⟩ := ih h1 vs1 l1 k1 (hv.2 l1 x p1)
    refine ⟨vs2, x :: xs, h2, l2, ?_, .cons p1 p2, k2⟩
    show (Except.bind (a.exec S P vs h) fun p => _) = _
    rw [e1]
    show (Except.bind (runActs S P vs1 as h1) fun p => _) = _
    rw [e2]
    rfl

/-- C88: the start of a program. -/
theorem C88_start {h : Heap w} (hwf : h.WF) : CleanEnv h [] [] := ⟨[], rfl, EnvAll.nil hwf, by simp⟩

/-- A calm program: a string, elements appended, `resize` in both directions, an algorithm in between. -/
def calmly : List (Act 8) := [.call (.vec (.newString "10100".toList)), .resize 0 3, .resize 0 12, .call (.vec (.push 0 true)), .call (.reverse 0 0 13),
  .call (.vec (.insertN 0 2 3 true)), .resizeVal 0 20 false, .call (.debugString 0)]

theorem calmly_valid (S : ShiftSem 8) : AlongL (fun ls a => a.ListPre ls ∧ a.ListLim S ls ∧ a.Calm ls) calmly [] := by
  have lim : ∀ n : Nat, n < 100 → n < 2 ^ 32 ∧ n < 2 ^ 31 ∧ n ≤ 2 ^ 24 := fun n hn => by omega
  refine ⟨⟨trivial, ⟨trivial, .inl trivial⟩, trivial⟩, ?_⟩
  rintro _ _ ⟨rfl, rfl⟩
  refine ⟨⟨by show _ < _; decide, (lim 3 (by decide)).1, by show ∀ x ∈ _, _; decide⟩, ?_⟩
  rintro _ _ ⟨rfl, rfl⟩
  refine ⟨⟨by show _ < _; decide, (lim 12 (by decide)).1, by show ∀ x ∈ _, _; decide⟩, ?_⟩
  rintro _ _ ⟨rfl, rfl⟩
  refine ⟨⟨by show _ < _; decide, ⟨trivial, .inl trivial⟩, trivial⟩, ?_⟩
  rintro _ _ ⟨rfl, rfl⟩
  refine ⟨⟨⟨by decide, by decide, by decide⟩, .inl (by decide), trivial⟩, ?_⟩
  rintro _ _ ⟨rfl, rfl⟩
  refine ⟨⟨⟨by decide, by decide⟩, ⟨(lim _ (by decide)).2.2, .inl (by show ¬ _; decide)⟩, trivial⟩, ?_⟩
  rintro _ _ ⟨rfl, rfl⟩
  refine ⟨⟨by show _ < _; decide, (lim 20 (by decide)).1, by decide, .inl rfl⟩, ?_⟩
  rintro _ _ ⟨rfl, rfl⟩
  exact ⟨⟨by show _ < _; decide, (lim _ (by decide)).2.1, trivial⟩, fun _ _ _ => trivial⟩

example (S : ShiftSem 8) : CleanEnv (emptyHeap : Heap 8) [] [] ∧
    AlongL (fun ls a => a.ListPre ls ∧ a.ListLim S ls ∧ a.Calm ls) calmly [] := ⟨C88_start emptyHeap_wf, calmly_valid S⟩

example (S : ShiftSem 8) (P : Policy) : ∃ vs' h', runActs S P [] calmly (emptyHeap : Heap 8) =
    .ok ((vs', [.unit, .unit, .unit, .unit, .unit, .unit, .unit, .text "10111000 00000101 0000".toList]), h') := by
  obtain ⟨vs', xs, h', ls', e, s, -, -⟩ := C88_program (by decide) S P emptyHeap [] [] calmly (C88_start emptyHeap_wf) (calmly_valid S)
  refine ⟨vs', h', ?_⟩
  rw [e]
  suffices hh : xs = [.unit, .unit, .unit, .unit, .unit, .unit, .unit, .text "10111000 00000101 0000".toList] by rw [hh]
  unfold calmly at s
  rcases s with _ | ⟨⟨rfl, rfl⟩, s⟩
  rcases s with _ | ⟨⟨rfl, rfl⟩, s⟩
  rcases s with _ | ⟨⟨rfl, rfl⟩, s⟩
  rcases s with _ | ⟨⟨rfl, rfl⟩, s⟩
  rcases s with _ | ⟨⟨rfl, rfl⟩, s⟩
  rcases s with _ | ⟨⟨rfl, rfl⟩, s⟩
  rcases s with _ | ⟨⟨rfl, rfl⟩, s⟩
  rcases s with _ | ⟨⟨rfl, rfl⟩, s⟩
  cases s
  decide

end BitLib
