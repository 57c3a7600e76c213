import Verif.Lemmas.Threads
import Verif.Lemmas.Code
import Verif.Props.Isolation
/-
C82: calls made by several threads at the same time. As long as no thread stores to a word that another one accesses, every interleaving of
their loads and stores ends with what the calls do one after the other. Bits that share a word are a different matter.
-/
namespace BitLib
variable {w : Nat}

theorem bitAt_only {A : Int → Prop} (m : Mem w) (i : Int) (h : A (i / (w : Int))) : bitAt (only A m) i = bitAt m i := by
  unfold bitAt only
  rw [if_pos h]

/-- C82: threads `i`, each of which calls a procedure `x i` that works with the bits `R i` and `W i` (for the library: `C78_*`), whose bits
exist, and that are executed as some code `c i`, of which only its meaning without interruption is known. No thread stores to a word that holds
bits of another one. Then for every order in which the accesses can happen: there is no data race and nothing undefined, no thread ever
has to wait for another one, all threads have ended after `N` accesses, and the results are those of the single calls; so is what they
write, and no other bit has changed. -/
theorem C82_threads {ι : Type} [Fintype ι] [DecidableEq ι] {β : ι → Type} (x : (i : ι) → M w (β i)) (R W : ι → Int → Prop)
    (hx : ∀ i, Isolated (x i) (R i) (W i)) (m : Mem w) (hm : ∀ i j, R i j ∨ W i j → (bitAt m j).isSome)
    (c : (i : ι) → Code w (β i)) (hc : ∀ i, (c i).Does (x i))
    (hap : ∀ i j, i ≠ j → ∀ a, (c i).Stores a → WordOf w (Either (R i) (W i)) a → ¬ WordOf w (Either (R j) (W j)) a) :
    ∃ (r : (i : ι) → β i) (m' : Mem w) (N : Nat),
      (∀ i, ∃ mi, x i m = .ok (r i, mi) ∧ ∀ j, W i j → bitAt m' j = bitAt mi j) ∧ (∀ j, (∀ i, ¬ W i j) → bitAt m' j = bitAt m j) ∧
      ∀ n t, Exec n (c, m) t → ¬ Race t ∧ ¬ Undef t ∧ n ≤ N ∧ (n < N → ∃ u, Step t u) ∧ (n = N → Done t r ∧ t.2 = m') := by
  classical
  have key : ∀ i, ∃ r mi m2, x i m = .ok (r, mi) ∧ x i (only (WordOf w (Either (R i) (W i))) m) = .ok (r, m2) ∧
      ∀ j, ¬ W i j → bitAt mi j = bitAt m j := by
    intro i
    have hh : ∀ j, R i j ∨ W i j → bitAt (only (WordOf w (Either (R i) (W i))) m) j = bitAt m j :=
      fun j hj => bitAt_only m j ⟨j, hj, rfl⟩
    obtain ⟨r, m1, m2, h1, h2, -, h3⟩ := hx i m (only (WordOf w (Either (R i) (W i))) m)
      (fun j hj => ⟨hm i j hj, by rw [hh j hj]; exact hm i j hj⟩) (fun j hj => (hh j (Or.inl hj)).symm)
    exact ⟨r, m1, m2, h1, h2, fun j hj => (h3 j hj).1⟩
  choose r mf m2 h1 h2 h3 using key
  let A : ι → Int → Prop := fun i => WordOf w (Either (R i) (W i))
  have h0 : TInv A c m r mf (∑ i, (c i).steps m) 0 (c, m) (fun _ => m) :=
    ⟨fun i => by rw [← h1 i]; exact hc i m,
     fun i => Code.within_of_run (A i) (c i) m (r i) (m2 i) (by rw [← h2 i]; exact hc i _),
     fun _ _ _ => rfl, fun _ _ h => h, fun _ _ => rfl, by simp⟩
  have hsame : ∀ i i' a, A i a → A i' a → mf i a = mf i' a := by
    intro i i' a hi hi'
    by_cases he : i = i'
    · rw [he]
    · have hr : ∀ i, (c i).run m = .ok (r i, mf i) := fun i => by rw [← h1 i]; exact hc i m
      rw [Code.run_unstored (c i) m (r i) (mf i) (hr i) (fun h => hap i i' he a h hi hi'),
        Code.run_unstored (c i') m (r i') (mf i') (hr i') (fun h => hap i' i (Ne.symm he) a h hi' hi)]
  refine ⟨r, fun a => if h : ∃ i, A i a then mf h.choose a else m a, ∑ i, (c i).steps m, fun i => ⟨mf i, h1 i, ?_⟩, ?_, ?_⟩
  rotate_left 2
  · intro n t ht
    obtain ⟨pm, hI⟩ := h0.exec hap n t ht
    refine ⟨hI.noRace hap, hI.noUndef, ?_, hI.progress, ?_⟩
    · have := hI.count; omega
    · rintro rfl
      obtain ⟨hd, hA, hrest⟩ := hI.final
      refine ⟨hd, ?_⟩
      funext a
      by_cases h : ∃ i, A i a
      · rw [dif_pos h]; exact hA _ a h.choose_spec
      · rw [dif_neg h]; exact hrest a (fun i hi => h ⟨i, hi.2⟩)
  · intro j hj
    have ha : A i (j / (w : Int)) := ⟨j, Or.inr hj, rfl⟩
    have he : ∃ i, A i (j / (w : Int)) := ⟨i, ha⟩
    unfold bitAt
    beta_reduce
    rw [dif_pos he, hsame _ _ _ he.choose_spec ha]
  · intro j hj
    by_cases h : ∃ i, A i (j / (w : Int))
    · rw [← h3 h.choose j (hj _)]
      unfold bitAt
      beta_reduce
      rw [dif_pos h]
    · unfold bitAt
      beta_reduce
      rw [dif_neg h]

/-- C82: any number of threads that only read (their calls write nothing, and their code contains no store) may work with the same bits: no
races, the results of the single calls, memory is left alone. -/
theorem C82_readers {ι : Type} [Fintype ι] [DecidableEq ι] {β : ι → Type} (x : (i : ι) → M w (β i)) (R : ι → Int → Prop)
    (hw : 0 < w) (hx : ∀ i, Isolated (x i) (R i) NoBits) (m : Mem w) (hm : ∀ i j, R i j → (bitAt m j).isSome)
    (c : (i : ι) → Code w (β i)) (hc : ∀ i, (c i).Does (x i)) (hs : ∀ i a, ¬ (c i).Stores a) :
    ∃ (r : (i : ι) → β i) (N : Nat), (∀ i, x i m = .ok (r i, m)) ∧
      ∀ n t, Exec n (c, m) t → ¬ Race t ∧ ¬ Undef t ∧ n ≤ N ∧ (n < N → ∃ u, Step t u) ∧ (n = N → Done t r ∧ t.2 = m) := by
  obtain ⟨r, m', N, h1, h2, h3⟩ := C82_threads x R (fun _ => NoBits) hx m (fun i j h => hm i j (h.resolve_right id)) c hc
    (fun i _ _ a h => absurd h (hs i a))
  have : m' = m := mem_ext_bitAt hw (fun j => h2 j (fun _ => id))
  subst this
  refine ⟨r, N, fun i => ?_, h3⟩
  obtain ⟨mi, hi, -⟩ := h1 i
  have : mi = m' := by
    funext a
    exact Code.run_unstored (c i) m' (r i) mi (by rw [← hi]; exact hc i m') (hs i a)
  rw [hi, this]

/-- C82: two calls that work with different words, made at the same time: every interleaving ends like one call after the other, in either
order. -/
theorem C82_two {α β : Type} (hw : 0 < w) (x : M w α) (y : M w β) (R1 W1 R2 W2 : Int → Prop) (hx : Isolated x R1 W1) (hy : Isolated y R2 W2)
    (hap : ∀ a, WordOf w (Either R1 W1) a → ¬ WordOf w (Either R2 W2) a) (m : Mem w) (hm : ∀ i, R1 i ∨ W1 i ∨ R2 i ∨ W2 i → (bitAt m i).isSome)
    (c : Code w α) (d : Code w β) (hc : c.Does x) (hd : d.Does y) :
    ∃ a b m' N, (∃ m1, x m = .ok (a, m1) ∧ y m1 = .ok (b, m')) ∧ (∃ m2, y m = .ok (b, m2) ∧ x m2 = .ok (a, m')) ∧
      ∀ n t, Exec n (duo c d, m) t → ¬ Race t ∧ ¬ Undef t ∧ n ≤ N ∧ (n < N → ∃ u, Step t u) ∧
        (n = N → Done t (duoResult a b) ∧ t.2 = m') := by
  have hbits : ∀ P Q : Int → Prop, (∀ i, P i → Either R1 W1 i) → (∀ i, Q i → Either R2 W2 i) → Apart P Q := by
    intro P Q hP hQ i hi hi'
    exact hap (i / (w : Int)) ⟨i, hP i hi, rfl⟩ ⟨i, hQ i hi', rfl⟩
  obtain ⟨a, b, mp, mq, m', e1, e2, e3, e4⟩ := hx.comm hw hy (hbits _ _ (fun _ => Or.inr) (fun _ => Or.inl))
    (fun i h h' => hbits _ _ (fun _ => Or.inl) (fun _ => Or.inr) i h' h) (hbits _ _ (fun _ => Or.inr) (fun _ => Or.inr)) m hm
  obtain ⟨_, mp', _, p1, -, -, p2⟩ := hx m m (fun i hi => ⟨hm i (by tauto), hm i (by tauto)⟩) (fun _ _ => rfl)
  obtain ⟨_, mq', _, q1, -, -, q2⟩ := hy m m (fun i hi => ⟨hm i (by tauto), hm i (by tauto)⟩) (fun _ _ => rfl)
  obtain ⟨_, m2', _, s1, -, -, s2⟩ := hy mp mp (fun i hi => by
    have : bitAt mp i = bitAt m i := by
      rw [e1] at p1
      simp only [Except.ok.injEq, Prod.mk.injEq] at p1
      rw [p1.2]
      exact (p2 i (fun h => hbits W1 (Either R2 W2) (fun _ => Or.inr) (fun _ => id) i h hi)).1
    rw [this]
    exact ⟨hm i (by tauto), hm i (by tauto)⟩) (fun _ _ => rfl)
  obtain ⟨r, m0, N, h1, h2, h3⟩ := C82_threads (ι := Bool) (β := Two α β) (fun i => match i with | false => x | true => y)
    (fun i => match i with | false => R1 | true => R2) (fun i => match i with | false => W1 | true => W2)
    (fun i => match i with | false => hx | true => hy) m
    (fun i => match i with | false => fun j h => hm j (by tauto) | true => fun j h => hm j (by tauto)) (duo c d)
    (fun i => match i with | false => hc | true => hd)
    (fun i j hij a _ => match i, j, hij with
      | false, true, _ => hap a
      | true, false, _ => fun h h' => hap a h' h)
  obtain ⟨m1, hf, hfW⟩ := h1 false
  obtain ⟨m2, ht, htW⟩ := h1 true
  have hf : x m = .ok (r false, m1) := hf
  have ht : y m = .ok (r true, m2) := ht
  rw [hf] at e1 p1
  rw [ht] at e3 q1
  rw [e2] at s1
  simp only [Except.ok.injEq, Prod.mk.injEq] at e1 e3 p1 q1 s1
  obtain ⟨rfl, rfl⟩ := e1
  obtain ⟨rfl, rfl⟩ := e3
  obtain ⟨-, rfl⟩ := p1
  obtain ⟨-, rfl⟩ := q1
  obtain ⟨-, rfl⟩ := s1
  have hm' : m0 = m' := by
    apply mem_ext_bitAt hw
    intro j
    classical
    by_cases h1 : W1 j
    · rw [hfW j h1, (s2 j (fun h => hbits W1 W2 (fun _ => Or.inr) (fun _ => Or.inr) j h1 h)).1]
    · by_cases h2' : W2 j
      · rw [htW j h2']
        obtain ⟨_, ma, mb, u1, u2, u3, -⟩ := hy m mp (fun i hi => ⟨hm i (by tauto), by
          rw [(p2 i (fun h => hbits W1 (Either R2 W2) (fun _ => Or.inr) (fun _ => id) i h hi)).1]; exact hm i (by tauto)⟩)
          (fun i hi => (p2 i (fun h => hbits W1 R2 (fun _ => Or.inr) (fun _ => Or.inl) i h hi)).1.symm)
        rw [ht] at u1
        rw [e2] at u2
        rw [(Prod.mk.inj (Except.ok.inj u1)).2, (Prod.mk.inj (Except.ok.inj u2)).2]
        exact (u3 j h2').2
      · rw [h2 j (fun i => match i with | false => h1 | true => h2'), (s2 j h2').1, (p2 j h1).1]
  subst hm'
  refine ⟨r false, r true, m0, N, ⟨_, hf, e2⟩, ⟨_, ht, e4⟩, fun n t h => ?_⟩
  obtain ⟨g1, g2, g3, g4, g5⟩ := h3 n t h
  refine ⟨g1, g2, g3, g4, fun he => ⟨?_, (g5 he).2⟩⟩
  intro i
  rw [(g5 he).1 i]
  cases i <;> rfl

/-- C82: a range can be filled by `k` threads if the places where it is cut are word boundaries. Thread `i` fills the words from `p i` up to `p (i + 1)`;
every interleaving of any code for these calls is free of races and undefined behaviour and ends after the same number of accesses with the
memory that one `fill` of the whole range leaves. -/
theorem C82_fill_blocks (hw : 0 < w) (S : ShiftSem w) (k : Nat) (p : Nat → Int) (hp : ∀ i < k, p i ≤ p (i + 1)) (v : Bool) (m : Mem w)
    (hm : ∀ a, p 0 ≤ a → a < p k → (m a).isSome) (c : Fin k → Code w Unit)
    (hc : ∀ i, (c i).Does (fill S ⟨p i, 0⟩ ⟨p (i + 1), 0⟩ v)) :
    ∃ m' N, fill S ⟨p 0, 0⟩ ⟨p k, 0⟩ v m = .ok ((), m') ∧ ∀ n t, Exec n (c, m) t → ¬ Race t ∧ ¬ Undef t ∧ n ≤ N ∧
      (n < N → ∃ u, Step t u) ∧ (n = N → Done t (fun _ => ()) ∧ t.2 = m') := by
  have hmono : ∀ d i, i + d ≤ k → p i ≤ p (i + d) := by
    intro d
    induction d with
    | zero => intro i _; exact le_refl _
    | succ d ih =>
      intro i h
      have h1 := ih i (by omega)
      have h2 := hp (i + d) (by omega)
      rw [Nat.add_assoc] at h2
      omega
  have hle : ∀ i j, i ≤ j → j ≤ k → p i ≤ p j := by
    intro i j h1 h2
    have := hmono (j - i) i (by omega)
    rwa [show i + (j - i) = j by omega] at this
  have hword : ∀ a b j : Int, Within (⟨a, 0⟩ : BitIter w).addr (⟨b, 0⟩ : BitIter w).addr j ↔ a ≤ j / (w : Int) ∧ j / (w : Int) < b := by
    intro a b j
    have hw' : (0 : Int) < w := by omega
    show (a * (w : Int) + (0 : Nat) ≤ j ∧ j < b * (w : Int) + (0 : Nat)) ↔ _
    rw [Int.le_ediv_iff_mul_le hw', Int.ediv_lt_iff_lt_mul hw']
    simp
  have hmap : ∀ a b : Int, p 0 ≤ a → b ≤ p k → ∀ j, Within (⟨a, 0⟩ : BitIter w).addr (⟨b, 0⟩ : BitIter w).addr j → (bitAt m j).isSome := by
    intro a b ha hb j hj
    rw [hword] at hj
    unfold bitAt
    rw [Option.isSome_map]
    exact hm _ (by omega) (by omega)
  have hval : ∀ a : Int, (⟨a, 0⟩ : BitIter w).Valid := fun a => hw
  have haddr : ∀ a b : Int, a ≤ b → (⟨a, 0⟩ : BitIter w).addr ≤ (⟨b, 0⟩ : BitIter w).addr := by
    intro a b h
    have := Int.mul_le_mul_of_nonneg_right h (show (0 : Int) ≤ (w : Int) by omega)
    show a * (w : Int) + (0 : Nat) ≤ b * (w : Int) + (0 : Nat)
    omega
  obtain ⟨m', e1, e2⟩ := C10_fill S m ⟨p 0, 0⟩ ⟨p k, 0⟩ v ⟨hval _, hval _, haddr _ _ (hle 0 k (by omega) (le_refl _)),
    within_mapped (hmap _ _ (le_refl _) (le_refl _)) (fun _ => id)⟩
  obtain ⟨r, m0, N, h1, h2, h3⟩ := C82_threads (fun i : Fin k => fill S ⟨p i, 0⟩ ⟨p (i + 1), 0⟩ v) (fun _ => NoBits)
    (fun i => Within (⟨p i, 0⟩ : BitIter w).addr (⟨p (i + 1), 0⟩ : BitIter w).addr)
    (fun i => C78_fill S _ _ v (hval _) (hval _) (haddr _ _ (hp i i.2))) m
    (fun i j h => hmap _ _ (hle 0 i (by omega) (by omega)) (hle (i + 1) k (by omega) (le_refl _)) j (h.resolve_left id)) c hc
    (by
      rintro i j hij a - ⟨x, hx, rfl⟩ ⟨y, hy, he⟩
      have hx := (hword _ _ _).1 (hx.resolve_left id)
      have hy := (hword _ _ _).1 (hy.resolve_left id)
      rcases Nat.lt_or_ge i.1 j.1 with h | h
      · have := hle (i + 1) j (by omega) (by omega)
        omega
      · have := hle (j + 1) i (by omega) (by omega)
        omega)
  have hm0 : m0 = m' := by
    apply mem_ext_bitAt hw
    intro j
    rw [e2 j, ← ite_within]
    by_cases hj : p 0 ≤ j / (w : Int) ∧ j / (w : Int) < p k
    · rw [if_pos ((hword _ _ _).2 hj)]
      have : ∀ n ≤ k, j / (w : Int) < p n → ∃ i : Fin k, p i ≤ j / (w : Int) ∧ j / (w : Int) < p (i + 1) := by
        intro n
        induction n with
        | zero => intro _ h; omega
        | succ n ih =>
          intro hn h
          by_cases h' : j / (w : Int) < p n
          · exact ih (by omega) h'
          · exact ⟨⟨n, by omega⟩, by simpa using h', h⟩
      obtain ⟨i, hi⟩ := this k (le_refl _) hj.2
      obtain ⟨mi, f1, f2⟩ := h1 i
      rw [f2 j ((hword _ _ _).2 hi)]
      obtain ⟨mi', g1, g2⟩ := C10_fill S m ⟨p i, 0⟩ ⟨p (i + 1), 0⟩ v ⟨hval _, hval _, haddr _ _ (hp i i.2),
        within_mapped (hmap _ _ (hle 0 i (by omega) (by omega)) (hle (i + 1) k (by omega) (le_refl _))) (fun _ => id)⟩
      rw [f1] at g1
      rw [(Prod.mk.inj (Except.ok.inj g1)).2, g2 j, ← ite_within, if_pos ((hword _ _ _).2 hi)]
    · rw [if_neg (fun h => hj ((hword _ _ _).1 h))]
      refine h2 j (fun i hi => hj ?_)
      have hi := (hword _ _ _).1 hi
      have := hle 0 i (by omega) (by omega)
      have := hle (i + 1) k (by omega) (le_refl _)
      omega
  subst hm0
  exact ⟨m0, N, e1, fun n t h => by
    obtain ⟨g1, g2, g3, g4, g5⟩ := h3 n t h
    exact ⟨g1, g2, g3, g4, g5⟩⟩

/-- Three threads fill the words 1 to 10, cut before the words 3 and 7. -/
example : (∀ i < 3, (fun i : Nat => if i = 0 then (1 : Int) else if i = 1 then 3 else if i = 2 then 7 else 10) i ≤
    (fun i : Nat => if i = 0 then (1 : Int) else if i = 1 then 3 else if i = 2 then 7 else 10) (i + 1)) ∧
    ∀ i : Fin 3, ∃ c : Code 8 Unit, c.Does (fill S8 ⟨(fun i : Nat => if i = 0 then (1 : Int) else if i = 1 then 3 else if i = 2 then 7 else 10) i, 0⟩
      ⟨(fun i : Nat => if i = 0 then (1 : Int) else if i = 1 then 3 else if i = 2 then 7 else 10) (i + 1), 0⟩ true) :=
  ⟨by decide, fun i => by obtain ⟨c, hc, -⟩ := hc_fill S8 _ _ true; exact ⟨c, hc⟩⟩

/-! ### The library as code -/

/-- C82: the algorithms are code in this sense, and so are the operations of a bit reference. -/
theorem C82_code (S : ShiftSem w) (first last nFirst d : BitIter w) (v : Bool) (n : Int) (op : BitVec w → BitVec w)
    (op2 : BitVec w → BitVec w → BitVec w) (r o : BitRef w) (rop : RefOp w) :
    HasCode AnyWord (copy S first last d) ∧ HasCode AnyWord (move S first last d) ∧ HasCode AnyWord (copyBackward S first last d) ∧
      HasCode AnyWord (fill S first last v) ∧ HasCode AnyWord (transform S op first last d) ∧
      HasCode AnyWord (transform2 S op2 first last nFirst d) ∧ HasCode AnyWord (shiftLeft S first last n) ∧
      HasCode AnyWord (shiftRight S first last n) ∧ HasCode AnyWord (reverse S first last) ∧ HasCode AnyWord (swapRanges S first last d) ∧
      HasCode AnyWord (rotate S first nFirst last) ∧ HasCode AnyWord (rop.run r) ∧ HasCode AnyWord (r.assignRef o) ∧
      HasCode AnyWord (r.swap o) :=
  ⟨hc_copy .., hc_move .., hc_copyBackward .., hc_fill .., hc_transform .., hc_transform2 .., hc_shiftLeft .., hc_shiftRight .., hc_reverse ..,
    hc_swapRanges .., hc_rotate .., hc_refOp .., hc_assignRef .., hc_swap ..⟩

/-- C82: `find`, `equal`, `count` and reading a reference can be done without a store, as `C82_readers` demands. -/
theorem C82_code_read (S : ShiftSem w) (first last d : BitIter w) (v : Bool) (r : BitRef w) :
    HasCode NoWord (find S first last v) ∧ HasCode NoWord (equal S first last d) ∧ HasCode NoWord (count S first last v) ∧
      HasCode NoWord r.toBool :=
  ⟨hc_find .., hc_equal .., hc_count .., hc_toBool ..⟩

/-! ### Bits that share a word -/

theorem wordOf_just (a b : Int) (P : Int → Prop) (hP : ∀ i, P i → i = a) (h : WordOf w (Either (Just a) P) b) : b = a / (w : Int) := by
  obtain ⟨i, hi, rfl⟩ := h
  rcases hi with hi | hi
  · rw [show i = a from hi]
  · rw [hP i hi]

theorem within_congr {α : Type} {A B : Int → Prop} (h : ∀ a, A a → B a) (c : Code w α) : ∀ m : Mem w, c.Within A m → c.Within B m := by
  induction c with
  | ret => intros; trivial
  | stop => intros; trivial
  | load a k ih => intro m hw; exact ⟨h a hw.1, fun x hx => ih x m (hw.2 x hx)⟩
  | store a x k ih => intro m hw; exact ⟨h a hw.1, ih _ hw.2⟩

/-- Code for a procedure that works with the bit `a` accesses only its word. -/
theorem within_word {α : Type} {x : M w α} {a : Int} {W : Int → Prop} (hx : Isolated x (Just a) W) (hW : ∀ i, W i → i = a) (m : Mem w)
    (hm : (bitAt m a).isSome) (c : Code w α) (hc : c.Does x) : c.Within (fun b => b = a / (w : Int)) m := by
  have hh : ∀ j, Just a j ∨ W j → j = a := fun j h => h.elim id (hW j)
  have hb : bitAt (only (WordOf w (Either (Just a) W)) m) a = bitAt m a := bitAt_only m a ⟨a, Or.inl rfl, rfl⟩
  obtain ⟨r, _, m2, -, h2, -⟩ := hx m (only (WordOf w (Either (Just a) W)) m)
    (fun j hj => by rw [hh j hj, hb]; exact ⟨hm, hm⟩) (fun j hj => by rw [hh j (Or.inl hj), hb])
  exact within_congr (fun b => wordOf_just a b W hW) c m
    (Code.within_of_run _ c m r m2 (by rw [← h2]; exact hc _))

theorem access_of_not_ret {α : Type} {c : Code w α} {m mf : Mem w} {r : α} {k : Int} (hr : c.run m = .ok (r, mf)) (hw : c.Within (fun b => b = k) m)
    (h : ∀ v, c ≠ .ret v) : ∃ b, c.access = some (k, b) := by
  cases c with
  | ret v => exact absurd rfl (h v)
  | stop e => exact absurd hr (by simp [Code.run, ub])
  | load a g => exact ⟨false, by rw [show k = a from hw.1.symm]; rfl⟩
  | store a x g => exact ⟨true, by rw [show k = a from hw.1.symm]; rfl⟩

theorem races {α β : Type} {k : Int} {m mf md : Mem w} {c : Code w α} {d : Code w β} {r : α} {s : β} (hc : c.run m = .ok (r, mf))
    (wc : c.Within (fun b => b = k) m) (hne : mf k ≠ m k) (hd : d.run m = .ok (s, md)) (wd : d.Within (fun b => b = k) m)
    (nd : ∀ v, d ≠ .ret v) : ∃ n t, Exec n (duo c d, m) t ∧ Race t := by
  obtain ⟨n, c1, h1, h2⟩ := first_store d c m r mf hc wc hne
  obtain ⟨b, hb⟩ := access_of_not_ret hd wd nd
  exact ⟨n, _, h1, false, true, k, b, by decide, h2, hb⟩

/-- C82: two threads that write bits of one word, be it the same bit or two different ones, such that both bits change: whatever the code of the two operations is,
there is an order of the accesses that contains a data race. -/
theorem C82_shared_word (r1 r2 : BitRef w) (a1 a2 : Int) (h1 : r1.At a1) (h2 : r2.At a2) (hsame : a1 / (w : Int) = a2 / (w : Int))
    (op1 op2 : RefOp w) (m : Mem w) (b1 b2 : Bool) (hb1 : bitAt m a1 = some b1) (hb2 : bitAt m a2 = some b2) (hn1 : op1.spec b1 ≠ b1)
    (hn2 : op2.spec b2 ≠ b2) (c d : Code w Unit) (hc : c.Does (op1.run r1)) (hd : d.Does (op2.run r2)) :
    ∃ n t, Exec n (duo c d, m) t ∧ Race t := by
  obtain ⟨m1, e1, f1, -⟩ := C03_write m r1 a1 b1 op1 h1 hb1
  obtain ⟨m2, e2, f2, -⟩ := C03_write m r2 a2 b2 op2 h2 hb2
  refine races (k := a1 / (w : Int)) (mf := m1) (md := m2) (by rw [hc]; exact e1)
    (within_word (C78_ref_write r1 a1 h1 op1) (fun _ h => h) m (by rw [hb1]; rfl) c hc) ?_ (by rw [hd]; exact e2) ?_ ?_
  · intro he
    have := f1 a1
    rw [if_pos rfl] at this
    unfold bitAt at this hb1
    rw [he, hb1] at this
    exact hn1 (by simpa using this.symm)
  · rw [hsame]
    exact within_word (C78_ref_write r2 a2 h2 op2) (fun _ h => h) m (by rw [hb2]; rfl) d hd
  · rintro v rfl
    have h := hd m
    rw [e2] at h
    have h : (Except.ok (v, m) : Except UB _) = .ok ((), m2) := h
    simp only [Except.ok.injEq, Prod.mk.injEq] at h
    have := f2 a2
    rw [if_pos rfl, ← h.2, hb2] at this
    exact hn2 (by simpa using this.symm)

/-- C82: the same when one thread writes and the other one reads another bit of the word. -/
theorem C82_shared_word_read (r1 r2 : BitRef w) (a1 a2 : Int) (h1 : r1.At a1) (h2 : r2.At a2) (hsame : a1 / (w : Int) = a2 / (w : Int))
    (op1 : RefOp w) (m : Mem w) (b1 b2 : Bool) (hb1 : bitAt m a1 = some b1) (hb2 : bitAt m a2 = some b2) (hn1 : op1.spec b1 ≠ b1)
    (c : Code w Unit) (d : Code w Bool) (hc : c.Does (op1.run r1)) (hd : d.Does r2.toBool) : ∃ n t, Exec n (duo c d, m) t ∧ Race t := by
  obtain ⟨m1, e1, f1, -⟩ := C03_write m r1 a1 b1 op1 h1 hb1
  obtain ⟨m2, e2, -, g2⟩ := C03_write m r2 a2 b2 .flip h2 hb2
  have e2 := C03_read m r2 a2 b2 h2 hb2
  refine races (k := a1 / (w : Int)) (mf := m1) (md := m) (by rw [hc]; exact e1)
    (within_word (C78_ref_write r1 a1 h1 op1) (fun _ h => h) m (by rw [hb1]; rfl) c hc) ?_ (by rw [hd]; exact e2) ?_ ?_
  · intro he
    have := f1 a1
    rw [if_pos rfl] at this
    unfold bitAt at this hb1
    rw [he, hb1] at this
    exact hn1 (by simpa using this.symm)
  · rw [hsame]
    exact within_word (C78_ref_read r2 a2 h2) (fun _ h => h.elim) m (by rw [hb2]; rfl) d hd
  · rintro v rfl
    have h := hd m
    rw [e2] at h
    have h : (Except.ok (v, m) : Except UB _) = .ok (b2, m) := h
    have h' := hd m2
    rw [g2] at h'
    have h' : (Except.ok (v, m2) : Except UB _) = .ok (!b2, m2) := h'
    simp only [Except.ok.injEq, Prod.mk.injEq, and_true] at h h'
    rw [h] at h'
    cases b2 <;> cases h'

theorem refOp_form (op : RefOp w) (r : BitRef w) : ∃ f : BitVec w → BitVec w, op.run r = (do let x ← load r.ptr; store r.ptr (f x)) := by
  cases op with
  | set => exact ⟨_, rfl⟩
  | reset => exact ⟨_, rfl⟩
  | flip => exact ⟨_, rfl⟩
  | setTo v => cases v <;> exact ⟨_, rfl⟩
  | assignVal v => obtain ⟨v⟩ := v; cases v <;> exact ⟨_, rfl⟩
  | assignWord x =>
    by_cases h : x &&& 1#w ≠ 0#w
    · exact ⟨_, if_pos h⟩
    · exact ⟨_, if_neg h⟩
  | andAssign v => exact ⟨_, rfl⟩
  | orAssign v => exact ⟨_, rfl⟩
  | xorAssign v => exact ⟨_, rfl⟩

/-- C82: and an update can be lost. For every two operations on two bits of one word there is code (load the word, then store it) and
an order of its four accesses after which both threads have ended and the first bit is as if the first operation had not been called. -/
theorem C82_lost_update (r1 r2 : BitRef w) (a1 a2 : Int) (h1 : r1.At a1) (h2 : r2.At a2) (hsame : a1 / (w : Int) = a2 / (w : Int))
    (hne : a1 ≠ a2) (op1 op2 : RefOp w) (m : Mem w) (b1 b2 : Bool) (hb1 : bitAt m a1 = some b1) (hb2 : bitAt m a2 = some b2) :
    ∃ c d t, c.Does (op1.run r1) ∧ d.Does (op2.run r2) ∧ Exec 4 (duo c d, m) t ∧ Done t (duoResult () ()) ∧ bitAt t.2 a1 = some b1 ∧
      bitAt t.2 a2 = some (op2.spec b2) := by
  obtain ⟨f1, e1⟩ := refOp_form op1 r1
  obtain ⟨f2, e2⟩ := refOp_form op2 r2
  have hdoes : ∀ (k : Int) (f : BitVec w → BitVec w),
      (Code.load k fun x => .store k (f x) (.ret ())).Does (do let x ← load k; store k (f x)) := by
    intro k f m
    show ((load k : M w _) m >>= fun p => (store k (f p.1) >>= fun _ => pure ()) p.2) = ((load k : M w _) m >>= fun p => store k (f p.1) p.2)
    cases (load k : M w _) m with
    | error e => rfl
    | ok p =>
      show ((store k (f p.1) : M w _) p.2 >>= fun q => .ok ((), q.2)) = store k (f p.1) p.2
      cases (store k (f p.1) : M w _) p.2 <;> rfl
  have hptr : r1.ptr = r2.ptr := by
    obtain ⟨p1, hp1, -, rfl⟩ := h1
    obtain ⟨p2, hp2, -, rfl⟩ := h2
    rwa [ediv_of_word _ _ hp1, ediv_of_word _ _ hp2] at hsame
  obtain ⟨m2, g1, g2, -⟩ := C03_write m r2 a2 b2 op2 h2 hb2
  rcases hx : m r2.ptr with _ | x
  · rw [(C03_unmapped m r2 op2 hx).2] at g1
    exact absurd g1 (by simp)
  have hm2 : m2 = m.set r2.ptr (f2 x) := by
    rw [e2, run_bind_ok' (a := x) (m' := m) (by unfold load; rw [hx])] at g1
    unfold store at g1
    rw [hx] at g1
    simp only [Except.ok.injEq, Prod.mk.injEq, true_and] at g1
    exact g1.symm
  refine ⟨_, _, (duo (.ret ()) (.ret ()), m2), by rw [e1]; exact hdoes _ f1, by rw [e2]; exact hdoes _ f2, ?_, ?_, ?_, ?_⟩
  · have hx1 : m r1.ptr = some x := by rw [hptr, hx]
    have hy : (m.set r1.ptr (f1 x)) r2.ptr = some (f1 x) := by unfold Mem.set; rw [if_pos hptr.symm]
    refine ⟨(duo (.ret ()) (.store r2.ptr (f2 x) (.ret ())), m.set r1.ptr (f1 x)), ⟨(duo (.store r1.ptr (f1 x) (.ret ())) (.store r2.ptr (f2 x) (.ret ())), m),
      ⟨(duo (.store r1.ptr (f1 x) (.ret ())) (.load r2.ptr fun x => .store r2.ptr (f2 x) (.ret ())), m), ⟨_, rfl, ?_⟩, ?_⟩, ?_⟩, ?_⟩
    · exact duo_step_left _ (by simp [Code.next, hx1])
    · exact duo_step_right _ (by simp [Code.next, hx])
    · exact duo_step_left _ (by simp [Code.next, hx1])
    · refine duo_step_right _ ?_
      have : (m.set r1.ptr (f1 x)).set r2.ptr (f2 x) = m2 := by
        rw [hm2, hptr]
        funext b
        unfold Mem.set
        by_cases hb : b = r2.ptr
        · rw [if_pos hb, if_pos hb]
        · rw [if_neg hb, if_neg hb, if_neg hb]
      simp [Code.next, hy, this]
  · intro i; cases i <;> rfl
  · show bitAt m2 a1 = _
    rw [g2 a1, if_neg hne, hb1]
  · show bitAt m2 a2 = _
    rw [g2 a2, if_pos rfl]

/-- C82: for words of at least two bits, it is not enough that two calls work with different bits. -/
theorem C82_bits_not_enough (hw : 2 ≤ w) : ¬ ∀ (r1 r2 : BitRef w) (a1 a2 : Int) (m : Mem w) (c d : Code w Unit), r1.At a1 → r2.At a2 → a1 ≠ a2 →
    (bitAt m a1).isSome → (bitAt m a2).isSome → c.Does r1.flip → d.Does r2.flip → ∀ n t, Exec n (duo c d, m) t → ¬ Race t := by
  intro h
  have h1 : (⟨0, 1#w <<< 0⟩ : BitRef w).At 0 := ⟨0, by omega, rfl, by simp⟩
  have h2 : (⟨0, 1#w <<< 1⟩ : BitRef w).At 1 := ⟨1, by omega, rfl, by simp⟩
  have d0 : (0 : Int) / (w : Int) = 0 := by simp
  have d1 : (1 : Int) / (w : Int) = 0 := Int.ediv_eq_zero_of_lt (by decide) (by omega)
  obtain ⟨c, hc, -⟩ := hc_refOp (.flip : RefOp w) ⟨0, 1#w <<< 0⟩
  obtain ⟨d, hd, -⟩ := hc_refOp (.flip : RefOp w) ⟨0, 1#w <<< 1⟩
  have hb : ∀ i : Int, bitAt (fun _ => some 0#w) i = some false := by intro i; simp [bitAt]
  obtain ⟨n, t, h3, h4⟩ := C82_shared_word _ _ 0 1 h1 h2 (by rw [d0, d1]) .flip .flip (fun _ => some 0#w) false false (hb 0) (hb 1)
    (by simp [RefOp.spec]) (by simp [RefOp.spec]) c d hc hd
  exact h _ _ 0 1 (fun _ => some 0#w) c d h1 h2 (by decide) (by rw [hb]; rfl) (by rw [hb]; rfl) hc hd n t h3 h4

/-! ### Concrete cases -/

theorem bitAt_zero (i : Int) : bitAt (fun _ => some 0#8 : Mem 8) i = some false := by simp [bitAt]

/-- Bits of different word ranges are in different words. -/
theorem words_apart {a b c d : Int} {P Q : Int → Prop} (hP : ∀ i, P i → a ≤ i / (w : Int) ∧ i / (w : Int) < b)
    (hQ : ∀ i, Q i → c ≤ i / (w : Int) ∧ i / (w : Int) < d) (h : b ≤ c ∨ d ≤ a) (x : Int) (h1 : WordOf w P x) : ¬ WordOf w Q x := by
  rintro ⟨j, hj, rfl⟩
  obtain ⟨i, hi, he⟩ := h1
  have := hP i hi
  have := hQ j hj
  omega

/-- A copy of bits 3 to 21 to bit 33 and beyond, and a fill of the bits 60 to 70 by another thread: no race, and the result of both calls. -/
example (c : Code 8 (BitIter 8)) (d : Code 8 Unit) (hc : c.Does (copy S8 ⟨0, 3⟩ ⟨2, 5⟩ ⟨4, 1⟩)) (hd : d.Does (fill S8 ⟨7, 4⟩ ⟨8, 6⟩ true)) :
    ∃ a b m' N, (∃ m1, copy S8 ⟨0, 3⟩ ⟨2, 5⟩ ⟨4, 1⟩ (fun _ => some 0#8) = .ok (a, m1) ∧ fill S8 ⟨7, 4⟩ ⟨8, 6⟩ true m1 = .ok (b, m')) ∧
      ∀ n t, Exec n (duo c d, fun _ => some 0#8) t → ¬ Race t ∧ (n = N → Done t (duoResult a b) ∧ t.2 = m') := by
  obtain ⟨a, b, m', N, h1, -, h3⟩ := C82_two (by decide) _ _ _ _ _ _
    (C78_copy S8 ⟨0, 3⟩ ⟨2, 5⟩ ⟨4, 1⟩ (by decide) (by decide) (by decide) (by decide) (Or.inr (by decide)))
    (C78_fill S8 ⟨7, 4⟩ ⟨8, 6⟩ true (by decide) (by decide) (by decide))
    (words_apart (a := 0) (b := 7) (c := 7) (d := 9)
      (by rintro i (⟨h1, h2⟩ | ⟨h1, h2⟩) <;> simp [BitIter.addr, len] at h1 h2 <;> omega)
      (by rintro i (h | ⟨h1, h2⟩); exact h.elim; simp [BitIter.addr] at h1 h2; omega) (Or.inl (by decide)))
    (fun _ => some 0#8) (fun i _ => by rw [bitAt_zero]; rfl) c d hc hd
  exact ⟨a, b, m', N, h1, fun n t h => ⟨(h3 n t h).1, (h3 n t h).2.2.2.2⟩⟩

/-- Two threads count the same bits. -/
example : ∃ c d : Code 8 Int, c.Does (count S8 ⟨0, 3⟩ ⟨2, 5⟩ true) ∧ d.Does (count S8 ⟨0, 3⟩ ⟨2, 5⟩ false) ∧
    (∀ a, ¬ c.Stores a) ∧ ∀ a, ¬ d.Stores a := by
  obtain ⟨c, hc, hc'⟩ := hc_count (P := NoWord) S8 ⟨0, 3⟩ ⟨2, 5⟩ true
  obtain ⟨d, hd, hd'⟩ := hc_count (P := NoWord) S8 ⟨0, 3⟩ ⟨2, 5⟩ false
  exact ⟨c, d, hc, hd, fun a h => hc' a h, fun a h => hd' a h⟩

example (c d : Code 8 Int) (hc : c.Does (count S8 ⟨0, 3⟩ ⟨2, 5⟩ true)) (hd : d.Does (count S8 ⟨0, 3⟩ ⟨2, 5⟩ false))
    (hc' : ∀ a, ¬ c.Stores a) (hd' : ∀ a, ¬ d.Stores a) (n : Nat) (t : Threads 8 (Two Int Int))
    (h : Exec n (duo c d, fun _ => some 0#8) t) : ¬ Race t := by
  obtain ⟨r, N, -, h3⟩ := C82_readers (ι := Bool) (β := Two Int Int)
    (fun i => match i with | false => count S8 ⟨0, 3⟩ ⟨2, 5⟩ true | true => count S8 ⟨0, 3⟩ ⟨2, 5⟩ false)
    (fun _ => Within 3 21) (by decide)
    (fun i => match i with
      | false => C78_count S8 ⟨0, 3⟩ ⟨2, 5⟩ true (by decide) (by decide) (by decide)
      | true => C78_count S8 ⟨0, 3⟩ ⟨2, 5⟩ false (by decide) (by decide) (by decide))
    (fun _ => some 0#8) (fun _ i _ => by rw [bitAt_zero]; rfl) (duo c d) (fun i => match i with | false => hc | true => hd)
    (fun i => match i with | false => hc' | true => hd')
  exact (h3 n t h).1

/-- Bits 2 and 5 of one word are flipped by two threads; the first flip can be lost. -/
example : ∃ (c d : Code 8 Unit) (t : Threads 8 (Two Unit Unit)), Exec 4 (duo c d, fun _ => some 0#8) t ∧ Done t (duoResult () ()) ∧
    bitAt t.2 2 = some false ∧ bitAt t.2 5 = some true := by
  obtain ⟨c, d, t, -, -, h1, h2, h3, h4⟩ := C82_lost_update (⟨0, 1#8 <<< 2⟩ : BitRef 8) ⟨0, 1#8 <<< 5⟩ 2 5 ⟨2, by decide, rfl, rfl⟩
    ⟨5, by decide, rfl, rfl⟩ (by decide) (by decide) .flip .flip (fun _ => some 0#8) false false (bitAt_zero 2) (bitAt_zero 5)
  exact ⟨c, d, t, h1, h2, h3, h4⟩

end BitLib
