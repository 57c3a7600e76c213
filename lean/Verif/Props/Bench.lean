import Verif.Lemmas.Bench
import Verif.Props.WordType
import Verif.Props.Overshift
import Mathlib.Data.List.Rotate
/-
C85: the benchmarks and the profiling program, for every number of iterations and all contents of the containers.
-/
namespace BitLib
open Op (at')
open BitLib.Tests BitLib.Bench

/-- C85: for the sizes of `Fits`, every benchmark is free of undefined behaviour for all contents of its containers and every number of
iterations, and does on them what its calls do on plain lists. -/
theorem C85_run (S : ShiftSem 64) (P : Policy) (N k : Nat) (hN : N < 2 ^ 32) (b : B) (hf : Fits N b) (h : Heap 64) (vs : List BV)
    (ls : List (List Bool)) (e : EnvOk h vs ls) (hs : Start N b ls) :
    ∃ vs' as h' ls', runCalls S P vs (prog N k ls b) h = .ok ((vs', as), h') ∧ SpecRun ls (prog N k ls b) ls' as ∧ EnvOk h' vs' ls' := by
  have hsz : Sized N b ls := hs.at0
  have hset := elementwise_same S ls _ (setup_elementwise N b hf ls hsz) ls (.refl _)
  refine C65_program_partial (by decide) S P h vs ls _ e (AlongC.append _ _ (Sized N b) ?_ ls hset.1 fun ls' as s => hsz.of_same (hset.2 ls' as s))
  exact along_replicate _ (Sized N b) (body_valid S N hN b hf) (fun ls ls' a hs h => body_sized S N hN b hf ls ls' a hs h) k

/-- C85: every registered benchmark has such a size. -/
theorem C85_registered (N : Nat) (hN : N ∈ registered) (b : B) (hd : Drawn N b) : Fits N b := by
  have key : ∀ c, ceilWords N = c → 4 ≤ c → last N = N → 16 ≤ N → Fits N b := by
    intro c h1 h2 h3 h4
    cases b <;> simp only [Fits, Drawn] at hd ⊢ <;> omega
  simp only [registered, List.mem_cons, List.not_mem_nil, or_false] at hN
  rcases hN with rfl | rfl
  · exact key 4 (by decide +kernel) (by decide) (by decide +kernel) (by decide)
  · exact key 1048576 (by decide +kernel) (by decide) (by decide +kernel) (by decide)

/-! ### What the benchmarks compute -/

/-- C85: BM_BitReverse leaves the bits as they were or reversed, according to the number of iterations. -/
theorem C85_reverse (N k : Nat) (l : List Bool) (hs : Start N .reverse [l]) (ls' : List (List Bool)) (as : List Ans)
    (h : SpecRun [l] (prog N k [l] .reverse) ls' as) : ls' = [if k % 2 = 0 then l else l.reverse] := by
  have hl : l.length = last N := (hs.at0 0 (by decide : 0 < 1)).2
  have := SpecRun.iterate (L := last N) List.reverse (fun l h => by rw [List.length_reverse, h]) (fun l ls' a hl s => by
    rw [s.1]
    show [splice l 0 (slice l 0 (last N)).reverse] = _
    rw [← hl, slice_full, splice_full _ _ List.length_reverse]) hl h
  rw [this]
  congr 1
  have h2 : ∀ n, List.reverse^[2 * n] l = l := fun n => by
    rw [Function.iterate_mul]
    have : (List.reverse^[2] : List Bool → List Bool) = id := by funext x; simp
    rw [this, Function.iterate_id, id]
  obtain ⟨n, rfl | rfl⟩ := Nat.even_or_odd' k
  · rw [h2, if_pos (by omega)]
  · rw [Function.iterate_succ_apply', h2, if_neg (by omega)]

/-- C85: the aligned `std::bit_not` benchmark likewise. -/
theorem C85_not (N k : Nat) (l : List Bool) (hs : Start N .notAA [l]) (ls' : List (List Bool)) (as : List Ans)
    (h : SpecRun [l] (prog N k [l] .notAA) ls' as) : ls' = [if k % 2 = 0 then l else l.map not] := by
  have hl : l.length = 64 * (N / 64) := (hs.at0 0 (by decide : 0 < 1)).2
  have := SpecRun.iterate (L := 64 * (N / 64)) (List.map not) (fun l h => by rw [List.length_map, h]) (fun l ls' a hl s => by
    rw [s.1]
    show [splice l 0 ((slice l 0 (64 * (N / 64))).map not)] = _
    rw [← hl, slice_full, splice_full _ _ (List.length_map ..)]) hl h
  rw [this]
  congr 1
  have h2 : ∀ n, (List.map not)^[2 * n] l = l := fun n => by
    rw [Function.iterate_mul]
    have : ((List.map not)^[2] : List Bool → List Bool) = id := by funext x; simp [Function.comp_def]
    rw [this, Function.iterate_id, id]
  obtain ⟨n, rfl | rfl⟩ := Nat.even_or_odd' k
  · rw [h2, if_pos (by omega)]
  · rw [Function.iterate_succ_apply', h2, if_neg (by omega)]

/-- C85: BM_BitRotate rotates by `k * draw` in all, and every call returns the place where the old first bit went. -/
theorem C85_rotate (N k draw : Nat) (l : List Bool) (hd : draw < last N) (hs : Start N (.rotate draw) [l]) (ls' : List (List Bool))
    (as : List Ans) (h : SpecRun [l] (prog N k [l] (.rotate draw)) ls' as) : ls' = [l.rotate (k * draw)] := by
  have hl : l.length = last N := (hs.at0 0 (by decide : 0 < 1)).2
  have := SpecRun.iterate (L := last N) (fun l => l.rotate draw) (fun l h => by rw [List.length_rotate, h]) (fun l ls' a hl s => by
    rw [s.1]
    show [splice l 0 (slice l draw (last N) ++ slice l 0 draw)] = _
    have h1 : slice l draw (last N) ++ slice l 0 draw = l.rotate draw := by
      rw [List.rotate_eq_drop_append_take (by omega), ← hl]
      unfold slice
      rw [List.take_length, List.drop_zero]
    rw [h1, splice_full _ _ (List.length_rotate ..)]) hl h
  rw [this]
  congr 1
  clear h this hs hl
  induction k generalizing l with
  | zero => simp
  | succ k ih => rw [Function.iterate_succ_apply, ih, List.rotate_rotate, Nat.succ_mul, Nat.add_comm]

/-- C85: BM_BitCount gives the number of ones every time. -/
theorem C85_count (N k : Nat) (l : List Bool) (hs : Start N .count [l]) (ls' : List (List Bool)) (as : List Ans)
    (h : SpecRun [l] (prog N k [l] .count) ls' as) : ls' = [l] ∧ as = List.replicate k (.num (l.count true : Int)) := by
  have hl : l.length = last N := (hs.at0 0 (by decide : 0 < 1)).2
  refine SpecRun.repeat (c := body N .count) (fun ls' a s => ⟨s.1, ?_⟩) h
  rw [s.2]
  show Ans.num ((slice l 0 (last N)).count true : Int) = _
  rw [← hl, slice_full]

/-- C85: BM_BitFind finds the bit set before the loop, every time. -/
theorem C85_find (N k : Nat) (ls : List (List Bool)) (hf : N / 2 + 4 < last N - 3) (hs : Start N .find ls) (ls' : List (List Bool))
    (as : List Ans) (h : SpecRun ls (prog N k ls .find) ls' as) : as = .unit :: List.replicate k (.pos ((N / 2 + 4 : Nat) : Int)) := by
  have h0 := (hs.at0 0 (by decide : 0 < 1)).1
  have hz := hs.zero rfl
  rcases h with _ | ⟨⟨rfl, rfl⟩, s2⟩
  refine congrArg (Ans.unit :: ·) (SpecRun.repeat (c := body N .find) (ls := Op.apply ls (Op.set 0 (N / 2 + 4) true : Op 64)) (x := .pos ((N / 2 + 4 : Nat) : Int)) (fun ls' a s => ⟨s.1, ?_⟩) s2).2
  rw [s.2]
  have e : at' (Op.apply ls (Op.set 0 (N / 2 + 4) true : Op 64)) 0 = (List.replicate (last N) false).set (N / 2 + 4) true := by
    show at' (ls.set 0 _) 0 = _
    rw [at'_set _ _ _ _ h0, if_pos rfl, hz]
  show Ans.pos ((2 + (slice (at' (Op.apply ls (Op.set 0 (N / 2 + 4) true : Op 64)) 0) 2 (last N - 3)).findIdx (· == true) : Nat) : Int) = _
  rw [e]
  congr 2
  set z := slice ((List.replicate (last N) false).set (N / 2 + 4) true) 2 (last N - 3) with hzd
  have hlen : z.length = last N - 3 - 2 := by rw [hzd, slice_length _ (by simp)]
  have hget : ∀ i (hi : i < z.length), z[i] = decide (i + 2 = N / 2 + 4) := fun i hi => by
    have := List.getElem?_eq_getElem hi
    have e2 : z[i]? = some (decide (i + 2 = N / 2 + 4)) := by
      have hr : (List.replicate (last N) false).length = last N := List.length_replicate
      rw [hzd, slice_get, if_pos (by omega), List.getElem?_set]
      split_ifs with h1
      · simp; omega
      · omega
      · rw [List.getElem?_replicate, if_pos (by omega)]; simp; omega
    rw [e2] at this
    exact (Option.some.inj this).symm
  have : z.findIdx (· == true) = N / 2 + 2 := by
    rw [List.findIdx_eq (by omega)]
    refine ⟨by rw [hget]; simp, fun j hj => by rw [hget]; simp; omega⟩
  rw [this]
  omega

/-- C85: BM_BitEqual compares equal sequences ("worst case scenario", equal_bench.hpp:16): every call of `equal` answers `true`. -/
theorem C85_equal (N k : Nat) (hN : 5 ≤ N) (ls : List (List Bool)) (hs : Start N .equal ls) (ls' : List (List Bool)) (as : List Ans)
    (h : SpecRun ls (prog N k ls .equal) ls' as) : ∃ pre, as = pre ++ List.replicate k (.bool true) := by
  obtain ⟨i0, l0⟩ := hs.at0 0 (by decide : 0 < 2)
  obtain ⟨i1, l1⟩ := hs.at0 1 (by decide : 1 < 2)
  simp only [words, List.getD_cons_zero, List.getD_cons_succ] at l0 l1
  obtain ⟨m, a1, a2, s1, s2, rfl⟩ := SpecRun.append h
  obtain rfl := copied (N - 4 - 1) ls m a1 i1 (by omega) (by omega) s1
  refine ⟨a1, congrArg (a1 ++ ·) (SpecRun.repeat (c := body N .equal) (x := .bool true) (fun ls' a s => ⟨s.1, ?_⟩) s2).2⟩
  rw [s.2]
  congr 1
  rw [decide_eq_true_iff]
  have e0 : at' (ls.set 1 (splice (at' ls 1) 2 (slice (at' ls 0) 1 (1 + (N - 4 - 1))))) 0 = at' ls 0 := by
    rw [at'_set _ _ _ _ i1, if_neg (by omega)]
  have e1 : at' (ls.set 1 (splice (at' ls 1) 2 (slice (at' ls 0) 1 (1 + (N - 4 - 1))))) 1 =
      splice (at' ls 1) 2 (slice (at' ls 0) 1 (1 + (N - 4 - 1))) := by rw [at'_set _ _ _ _ i1, if_pos rfl]
  rw [e0, e1]
  have hlen := slice_length (at' ls 0) (a := 1) (b := 1 + (N - 4 - 1)) (by omega)
  refine List.ext_getElem? fun i => ?_
  rw [slice_get, slice_get, splice_get _ _ (by omega), slice_get, hlen]
  by_cases hi : 1 + i < N - 4
  · rw [if_pos hi, if_pos (by omega), if_pos (by omega), if_pos (by omega), show 1 + (2 + i - 2) = 1 + i by omega]
  · rw [if_neg hi, if_neg (by omega)]

/-- C85: profile/src/main.cpp shifts everything but the first two bits of its container, 1028 places in every iteration; bits that nothing moves
onto stay. -/
theorem C85_profile (N k : Nat) (l : List Bool) (hs : Start N .profile [l]) (ls' : List (List Bool)) (as : List Ans)
    (h : SpecRun [l] (prog N k [l] .profile) ls' as) :
    ∃ l', ls' = [l'] ∧ l'.length = l.length ∧ (∀ i, i < 2 → l'[i]? = l[i]?) ∧
      ∀ i, 2 ≤ i → i < l.length → l'[i]? = l[i + 1028 * min k ((l.length - 1 - i) / 1028)]? := by
  have hl := (hs.at0 0 (by decide : 0 < 1)).2
  have hb : body N .profile = .shiftLeft 0 2 (64 * 2 ^ 24) 1028 := by simp only [body]; norm_num
  have hw : (words N .profile).getD 0 0 = 2 ^ 24 := by simp only [words, List.getD_cons_zero]
  have hp : prog N k [l] .profile = List.replicate k (body N .profile) := rfl
  have h0 : (2000 : Nat) < 64 * 2 ^ 24 := by norm_num
  rw [hw] at hl
  rw [hp, hb] at h
  generalize 64 * 2 ^ 24 = L at hl h h0
  exact shiftAll L h0 k l hl ls' as h

/-! ### Sizes that do not work -/

/-- C85: for `total_bits` from 4 to 64 the first iteration of BM_BitShiftLeft and BM_BitShiftRight shifts a word by its whole width. -/
theorem C85_small (P : Policy) (N k : Nat) (h4 : 4 ≤ N) (h64 : N ≤ 64) (b : B) (hb : b = .shiftLeft ∨ b = .shiftRight) (h : Heap 64)
    (vs : List BV) (ls : List (List Bool)) (e : EnvOk h vs ls) (hs : Start N b ls) :
    runCalls (Unpromoted 64) P vs (prog N (k + 1) ls b) h = .error (.ub .overshift) := by
  have hc : ceilWords N = 1 := by
    unfold ceilWords
    rw [f32_small (by omega)]
    omega
  have hlast : last N = 64 := by unfold last; rw [hc]
  have hn : (N / 2 + (2 ^ 32 - 1)) % 2 ^ 32 = N / 2 - 1 := by omega
  have pos := fun (v : BV) (d : Nat) => IsPos.begin_add (w := 64) (by decide) v d
  obtain ⟨i0, l0⟩ := hs.at0 0 (by rcases hb with rfl | rfl <;> exact (by decide : 0 < 1))
  have hl : (at' ls 0).length = 64 := by
    rcases hb with rfl | rfl <;> simpa [words, hc] using l0
  obtain ⟨v, hv, rv, hr⟩ := e.source (by decide : 0 < 64) (j := 0) (a := 0) (b := 64) ⟨i0, by omega, by omega⟩
  have hlen : len (Call.it v 0 : BitIter 64) (Call.it v 64) = 64 := by
    rw [hr.lenEq, slice_length _ (by omega)]; rfl
  rcases hb with rfl | rfl
  · refine runCalls_cons_error ?_
    show (Call.shiftLeft 0 0 (last N) _).exec _ _ _ _ = _
    rw [hlast, hn]
    refine failsV_withVec hv (failsV_bind_left (failsV_onMem ?_))
    exact (C18_shift_left_exact h.mem _ _ _ hr.range).2 ⟨(pos v 0).pos_zero.2 rfl, by rw [hlen]; rfl, by omega, by omega⟩
  · refine runCalls_cons_error ?_
    show (Call.shiftRight 0 0 (last N) _).exec _ _ _ _ = _
    rw [hlast, hn]
    refine failsV_withVec hv (failsV_bind_left (failsV_onMem ?_))
    exact (C18_shift_right_exact h.mem _ _ _ hr.range).2 ⟨(pos v 0).pos_zero.2 rfl, by rw [hlen]; rfl, by omega, by omega⟩

/-- C85: for other sizes, `float(total_bits)` can make the container smaller than `total_bits`: the rotate benchmark can then draw a place
beyond `last`. -/
theorem C85_float : ∃ N, N < 2 ^ 32 ∧ last N < N - 1 ∧ Drawn N (.rotate (N - 1)) ∧ ¬ Fits N (.rotate (N - 1)) :=
  ⟨2 ^ 25 + 2, by decide, by decide +kernel, Nat.le_refl _, fun h => absurd (show 2 ^ 25 + 2 - 1 < last (2 ^ 25 + 2) from h) (by decide +kernel)⟩

/-! ### Examples -/

/-- Heaps with the containers of BM_BitFind (small). -/
theorem exists_find (P : Policy) : ∃ (h : Heap 64) (vs : List BV) (ls : List (List Bool)), EnvOk h vs ls ∧ Start (2 ^ 8) .find ls := by
  obtain ⟨vs', as, h', ls', -, s, ok⟩ := C65_program_partial (w := 64) (by decide) (Unpromoted 64) P emptyHeap [] []
    [.vec (.newCountVal 256 false)] (EnvOk.nil emptyHeap_wf) ⟨⟨trivial, (by decide : 256 < 2 ^ 32), .inl trivial⟩, fun _ _ _ => trivial⟩
  rcases s with _ | ⟨⟨rfl, rfl⟩, s2⟩
  cases s2
  exact ⟨h', vs', _, ok, by decide +kernel, fun _ => rfl⟩

example (P : Policy) : ∃ (h : Heap 64) (vs : List BV) (ls : List (List Bool)) (vs' : List BV) (as : List Ans) (h' : Heap 64),
    runCalls (Unpromoted 64) P vs (prog (2 ^ 8) 3 ls .find) h = .ok ((vs', as), h') ∧ as = [.unit, .pos 132, .pos 132, .pos 132] := by
  obtain ⟨h, vs, ls, e, s⟩ := exists_find P
  obtain ⟨vs', as, h', ls', r, sp, -⟩ := C85_run (Unpromoted 64) P (2 ^ 8) 3 (by decide) .find
    (C85_registered _ (by decide) _ trivial) h vs ls e s
  exact ⟨h, vs, ls, vs', as, h', r, C85_find (2 ^ 8) 3 ls (by decide +kernel) s ls' as sp⟩

example : Fits (2 ^ 26) (.rotate (2 ^ 26 - 1)) := C85_registered _ (by decide) _ (Nat.le_refl _)
example : words (2 ^ 26) .copy = [1048577, 1048577] := by decide +kernel
example : body (2 ^ 8) .shiftLeft = .shiftLeft 0 0 256 127 := by simp [body, last, ceilWords, f32]

/-- The container of profile/src/main.cpp. -/
example : Start 0 .profile [List.replicate (64 * 2 ^ 24) true] :=
  ⟨by rw [List.map_singleton, List.length_replicate]; rfl, fun h => absurd h (by simp)⟩

end BitLib
