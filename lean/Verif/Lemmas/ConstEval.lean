import Verif.SpecConstEval
import Verif.Lemmas.PointersRotate
import Verif.Lemmas.Query
/- Constant evaluation: when it does what the program does, and when it ends at a call. -/
namespace BitLib
namespace CE
variable {w : Nat} {α β : Type}

theorem within_ok {p : P w α} {m : Mem w} {r : α × Mem w} : within p m = .ok r ↔ p m = .ok r := by
  unfold within
  cases p m <;> simp

theorem within_bind (p : P w α) (f : α → P w β) : within (p >>= f) = within p >>= fun a => within (f a) := by
  funext m
  show within (p >>= f) m = (within p m >>= fun r => within (f r.1) r.2 : Except KStop _)
  have e : (p >>= f) m = (p m >>= fun r => f r.1 r.2 : Except PStop _) := rfl
  unfold within
  rw [e]
  cases p m <;> rfl

theorem within_pure (a : α) : within (pure a : P w α) = pure a := rfl

theorem within_ite {c : Prop} [Decidable c] (p q : P w α) : within (if c then p else q) = if c then within p else within q := by split <;> rfl

theorem enter_std {f : Fn} (h : f = .stdFindIf ∨ f = .stdReverse ∨ f = .stdTransform ∨ f = .stdSwapRanges) : (enter true f : CM w Unit) = pure () := by
  rcases h with rfl | rfl | rfl | rfl <;> rfl

/-- The evaluation never gives a constant. -/
def Never (k : CM w α) : Prop := ∀ m r, k m ≠ .ok r

theorem never_stop (f : Fn) : Never (stop f : CM w α) := fun _ _ h => nomatch h
theorem never_enter (f : Fn) : Never (enter false f : CM w Unit) := by
  intro m r h
  cases f <;> cases h
theorem Never.bind {k : CM w α} (h : Never k) (f : α → CM w β) : Never (k >>= f) := by
  intro m r e
  replace e : (k m >>= fun r => f r.1 r.2 : Except KStop _) = .ok r := e
  cases hk : k m with
  | error s => rw [hk] at e; cases e
  | ok x => exact h m x hk
theorem never_after {k : CM w α} {f : α → CM w β} (h : ∀ a, Never (f a)) : Never (k >>= f) := by
  intro m r e
  replace e : (k m >>= fun r => f r.1 r.2 : Except KStop _) = .ok r := e
  cases hk : k m with
  | error s => rw [hk] at e; cases e
  | ok x => rw [hk] at e; exact h x.1 x.2 r e
theorem never_ite {c : Prop} [Decidable c] {p q : CM w α} (h : c → Never p) (h' : ¬ c → Never q) : Never (if c then p else q) := by
  split
  · exact h ‹_›
  · exact h' ‹_›

/-- A checked program that does what the program of the model does. -/
theorem within_same {p : P w α} {q : M w α} {m : Mem w} (h : Same (p m) (q m)) (r : α × Mem w) : within p m = .ok r ↔ q m = .ok r := by
  rw [within_ok]
  unfold Same at h
  cases hq : q m with
  | error e => rw [hq] at h; simp only at h; rw [h]; simp
  | ok x =>
    rw [hq] at h
    simp only at h
    rw [h]
    simp

theorem within_up (q : M w α) (m : Mem w) (r : α × Mem w) : within (Ptr.up q) m = .ok r ↔ q m = .ok r := within_same ((Ptr.f_up q).same m) r

theorem load_elem {A : Arr} {a : Int} (h : A.lo ≤ a ∧ a < A.hi) : (load A a : CM w _) = within (Ptr.up (BitLib.load a)) := by
  unfold load
  rw [Ptr.deref_ok h, pure_bind]

theorem never_load {A : Arr} {a : Int} (h : ¬ (A.lo ≤ a ∧ a < A.hi)) : Never (load A a : CM w _) := by
  unfold load
  rw [within_bind]
  refine Never.bind ?_ _
  intro m r e
  unfold within Ptr.deref at e
  rw [if_neg h] at e
  cases e

/-- The word of an iterator that does not point to the first bit of a word. -/
theorem has_elem {A : Arr} {it : BitIter w} (h : A.Has it) (hp : it.pos ≠ 0) : A.lo ≤ it.base ∧ it.base < A.hi := by
  have := h.lo_base
  have := h.next_of_pos (by omega)
  omega

/-! ### Algorithms that call `distance` unless the range is empty -/

/-- `if first.beq last then pure d else stop .distance`, and the same program in the model, which goes on in the other case. -/
theorem empty_only {first last : BitIter w} {d : α} {q : M w α} {m : Mem w} {r : α × Mem w} :
    (do within (Ptr.up (assertViable first last)); if first.beq last then pure d else stop .distance : CM w α) m = .ok r ↔
      (do assertViable first last; if first.beq last then pure d else q : M w α) m = .ok r ∧ first.beq last = true := by
  cases hb : first.beq last with
  | false =>
    simp only [Bool.false_eq_true, if_false, and_false, iff_false]
    exact never_after (fun _ => never_stop _) m r
  | true =>
    simp only [if_true, and_true]
    rw [show (do within (Ptr.up (assertViable first last)); pure d : CM w α) = within (Ptr.up (assertViable first last) >>= fun _ => pure d) by
      rw [within_bind]; rfl, within_same]
    exact (Ptr.f_bind' (Ptr.f_up _) fun _ => Ptr.f_pure (Φ := fun _ => True) trivial).same m

/-! ### find -/

theorem findWords_true (it : Int) (last : BitIter w) (v : Bool) : findWords true it last v = within (Ptr.up (BitLib.findWords it last v)) := rfl
theorem never_findWords (it : Int) (last : BitIter w) (v : Bool) : Never (findWords false it last v) := (never_enter _).bind _

theorem oneWord_iff {first last : BitIter w} (_hf : first.pos < w) (hl : last.pos < w) (hp : first.pos ≠ 0 ∨ ¬ first.addr = last.addr) (hle : first.addr ≤ last.addr) :
    first.base + (if last.pos = 0 then 1 else 0) = last.base ↔ ¬ Beyond first last := by
  unfold Beyond
  have e1 : first.addr = first.base * w + first.pos := rfl
  have e2 : last.addr = last.base * w + last.pos := rfl
  have hw : (0 : Int) < w := by omega
  rw [Int.add_mul, Int.one_mul]
  have hb : first.base ≤ last.base := by
    by_contra hc
    have : (last.base + 1) * (w : Int) ≤ first.base * w := Int.mul_le_mul_of_nonneg_right (by omega) (by omega)
    rw [Int.add_mul] at this
    omega
  rcases Int.lt_trichotomy (first.base + 1) last.base with h | h | h
  · have : (first.base + 2) * (w : Int) ≤ last.base * w := Int.mul_le_mul_of_nonneg_right (by omega) (by omega)
    rw [Int.add_mul] at this
    constructor
    · intro h'; split at h' <;> omega
    · intro h'; omega
  · have : last.base * (w : Int) = first.base * w + w := by rw [← h, Int.add_mul, Int.one_mul]
    constructor
    · intro h'; split at h' <;> omega
    · intro h'; rw [if_pos (by omega)]; exact h
  · have hbb : first.base = last.base := by omega
    have : last.base * (w : Int) = first.base * w := by rw [hbb]
    constructor
    · intro _; omega
    · intro _
      rw [if_neg]
      · omega
      · intro h0
        omega

/-- C++20. -/
theorem find_true {A : Arr} {S : ShiftSem w} {first last : BitIter w} {v : Bool} (hA : A.Has first) (h : first.pos ≠ 0 → ¬ first.base + (if last.pos = 0 then 1 else 0) = last.base) :
    find true A S first last v = within (Ptr.find A S first last v) := by
  unfold find Ptr.find
  by_cases hp : first.pos ≠ 0
  · simp only [if_pos hp, if_neg (h hp), load_elem (has_elem hA hp), within_bind, within_ite, findWords_true]
  · simp only [if_neg hp, findWords_true]

theorem never_find {cpp20 : Bool} {A : Arr} {S : ShiftSem w} {first last : BitIter w} {v : Bool} (hp : first.pos ≠ 0)
    (h : first.base + (if last.pos = 0 then 1 else 0) = last.base) : Never (find cpp20 A S first last v) := by
  unfold find
  simp only [if_pos hp, if_pos h]
  exact never_after fun _ => never_after fun _ => never_after fun _ => never_stop _

theorem never_find17 {A : Arr} {S : ShiftSem w} {first last : BitIter w} {v : Bool} (hp : first.pos = 0) : Never (find false A S first last v) := by
  unfold find
  rw [if_neg (by omega)]
  exact never_findWords _ _ _

/-- The bit is in the first word. -/
theorem tz_word {m : Mem w} {first : BitIter w} {x : BitVec w} {v : Bool} (_hf : first.pos < w) (hx : m first.base = some x) :
    tzFor v (x >>> first.pos) + first.pos < w ↔ ∃ a, first.addr ≤ a ∧ a < (first.base + 1) * w ∧ bitAt m a = some v := by
  obtain ⟨t1, t2, t3⟩ := tzFor_spec v (x >>> first.pos)
  simp only [BitVec.getLsbD_ushiftRight] at t2 t3
  generalize tzFor v (x >>> first.pos) = num at t1 t2 t3
  have hfa : first.addr = first.base * w + first.pos := rfl
  have hbit : ∀ k : Nat, first.pos + k < w → bitAt m (first.addr + k) = some (x.getLsbD (first.pos + k)) := by
    intro k hk
    rw [hfa, show first.base * (w : Int) + first.pos + k = first.base * w + ((first.pos + k : Nat) : Int) by omega,
      bitAt_word _ _ _ hk, hx]
    rfl
  rw [Int.add_mul, Int.one_mul]
  constructor
  · intro h
    refine ⟨first.addr + num, by omega, by omega, ?_⟩
    rw [hbit num (by omega), t3 (by omega)]
  · rintro ⟨a, h1, h2, h3⟩
    by_contra hc
    have := hbit (a - first.addr).toNat (by omega)
    rw [t2 _ (by omega), show first.addr + ((a - first.addr).toNat : Int) = a by omega, h3] at this
    cases v <;> cases this

theorem find17 {A : Arr} {S : ShiftSem w} {first last : BitIter w} {v : Bool} {m : Mem w} {r : BitIter w × Mem w} (hA : A.Has first) (hp : first.pos ≠ 0) (hf : first.pos < w)
    (h : ¬ first.base + (if last.pos = 0 then 1 else 0) = last.base) :
    find false A S first last v m = .ok r ↔
      find true A S first last v m = .ok r ∧ ∃ a, first.addr ≤ a ∧ a < (first.base + 1) * w ∧ bitAt m a = some v := by
  cases hx : m first.base with
  | none =>
    have : ∀ c, find c A S first last v m = .error (.step (.ub .outOfBounds)) := by
      intro c
      unfold find
      rw [if_pos hp, load_elem (has_elem hA hp)]
      show ((within (Ptr.up (BitLib.load first.base)) m >>= _ : Except KStop _)) = _
      unfold within Ptr.up BitLib.load
      rw [hx]
      rfl
    rw [this, this]
    simp
  | some x =>
    have step : ∀ c, find c A S first last v m = (do
        within (Ptr.form A (first.base + (if last.pos = 0 then 1 else 0)))
        if tzFor v (x >>> first.pos) + first.pos < w then within (Ptr.add A first (tzFor v (x >>> first.pos)))
        else do
          let first ← within (Ptr.add A first ((w - first.pos : Nat) : Int))
          findWords c first.base last v : CM w _) m := by
      intro c
      unfold find
      rw [if_pos hp, load_elem (has_elem hA hp)]
      show ((within (Ptr.up (BitLib.load first.base)) m >>= _ : Except KStop _)) = _
      unfold within Ptr.up BitLib.load
      rw [hx]
      show ((within (Ptr.up (lift (S.shr x first.pos))) m >>= _ : Except KStop _)) = _
      have hs : S.shr x first.pos = .ok (x >>> first.pos) := by
        unfold ShiftSem.shr
        rw [if_pos (Nat.lt_of_lt_of_le hf S.le_pw)]
      unfold within Ptr.up lift
      rw [hs]
      simp only [if_neg h]
      rfl
    rw [step, step, ← tz_word hf hx]
    by_cases hn : tzFor v (x >>> first.pos) + first.pos < w
    · simp only [hn, and_true, if_true]
    · simp only [hn, and_false, iff_false, if_false]
      exact never_after (fun _ => never_after fun _ => never_findWords _ _ _) m r

/-! ### count -/

theorem count_iff {A : Arr} {S : ShiftSem w} {first last : BitIter w} {v : Bool} {m : Mem w} {r : Int × Mem w} :
    count A S first last v m = .ok r ↔ BitLib.count S first last v m = .ok r ∧ first.base = last.base ∧ A.lo ≤ first.base ∧ first.base < A.hi := by
  by_cases hb : first.base = last.base
  · by_cases hi : A.lo ≤ last.base ∧ last.base < A.hi
    · simp only [hb, hi, and_true]
      unfold count BitLib.count
      simp only [hb, ne_eq, not_true_eq_false, if_false, pure_bind, load_elem hi]
      rw [show (do
        within (Ptr.up (assertViable first last))
        let x ← within (Ptr.up (BitLib.load last.base))
        let y ← within (Ptr.up (lift (bextr S x first.pos (subSize last.pos first.pos))))
        pure (if v then (BitLib.popcnt y : Int) else last.diff first - (BitLib.popcnt y : Int)) : CM w Int) = within (do
          Ptr.up (assertViable first last)
          let x ← Ptr.up (BitLib.load last.base)
          let y ← Ptr.up (lift (bextr S x first.pos (subSize last.pos first.pos)))
          pure (if v then (BitLib.popcnt y : Int) else last.diff first - (BitLib.popcnt y : Int))) by simp only [within_bind, within_pure], within_same]
      exact (Ptr.f_bind' (Ptr.f_up _) fun _ => Ptr.f_bind' (Ptr.f_up _) fun _ => Ptr.f_bind' (Ptr.f_up _) fun _ => Ptr.f_pure (Φ := fun _ => True) trivial).same m
    · simp only [hb, hi, and_false, iff_false]
      unfold count
      simp only [hb, ne_eq, not_true_eq_false, if_false]
      exact never_after (fun _ => (never_load hi).bind _) m r
  · simp only [hb, and_false, iff_false, false_and]
    unfold count
    simp only [ne_eq, hb, not_false_eq_true, if_true]
    exact never_after (fun _ => never_ite (fun _ => never_after fun _ => never_after fun _ => never_after fun _ => never_stop _) fun _ => never_stop _) m r

/-! ### reverse -/

theorem reverseShift_eq (A : Arr) (S : ShiftSem w) (fb lb wend : Int) (fp : Nat) :
    (reverseShift A lb wend fp fp : CM w Unit) = within (Ptr.reverseShift A S fb lb wend fp fp) := by
  unfold reverseShift Ptr.reverseShift
  simp only [Nat.lt_irrefl, if_false, gt_iff_lt]
  rfl

theorem never_reverseShift {A : Arr} {lb wend : Int} {fp gap : Nat} (h : fp ≠ gap) : Never (reverseShift A lb wend fp gap : CM w Unit) := by
  unfold reverseShift
  exact never_ite (fun _ => never_after fun _ => never_stop _) fun _ => never_ite (fun _ => never_after fun _ => never_stop _) fun _ => by omega

theorem reverse_inside {cpp20 : Bool} {A : Arr} {S : ShiftSem w} {first last : BitIter w} (h : A.Has first) (hl : A.Has last) (hb : first.base = last.base) (hp : first.pos ≠ 0 ∨ last.pos ≠ 0) :
    reverse cpp20 A S first last = within (Ptr.reverse A S first last) := by
  unfold reverse Ptr.reverse
  have hn : ¬ (first.pos = 0 ∧ last.pos = 0) := by omega
  have he : A.lo ≤ last.base ∧ last.base < A.hi := by
    rcases hp with hp | hp
    · exact hb ▸ has_elem h hp
    · exact has_elem hl hp
  simp only [if_neg hn, hb, ne_eq, not_true_eq_false, if_false, within_bind, load_elem he]

theorem reverse_true {A : Arr} {S : ShiftSem w} {first last : BitIter w} (h : A.Has first) (hl : A.Has last) (hp : first.pos = if last.pos = 0 then 0 else w - last.pos) :
    reverse true A S first last = within (Ptr.reverse A S first last) := by
  unfold reverse Ptr.reverse
  by_cases hn : first.pos = 0 ∧ last.pos = 0
  · simp only [if_pos hn, enter_std, within_bind, within_pure, pure_bind, true_or, or_true]
  · have hv := hl.valid
    unfold BitIter.Valid at hv
    have hl0 : last.pos ≠ 0 := fun e => hn ⟨by rw [hp, if_pos e], e⟩
    have hf0 : first.pos ≠ 0 := by rw [hp, if_neg hl0]; omega
    have hp' : w - last.pos = first.pos := by rw [hp, if_neg hl0]
    simp only [hl0, and_false, if_false, hp', Int.sub_zero, load_elem (has_elem h hf0), load_elem (has_elem hl hl0), enter_std, within_bind, within_ite, pure_bind, true_or, or_true]
    simp only [reverseShift_eq A S first.base]

theorem never_reverse17 {A : Arr} {S : ShiftSem w} {first last : BitIter w} (h : ¬ (first.base = last.base ∧ (first.pos ≠ 0 ∨ last.pos ≠ 0))) :
    Never (reverse false A S first last) := by
  unfold reverse
  refine never_after fun _ => never_ite (fun _ => (never_enter _).bind _) fun h1 => never_ite (fun _ => ?_) fun h2 => by omega
  exact never_after fun _ => never_after fun _ => never_after fun _ => never_after fun _ => (never_enter _).bind _

theorem never_reverse {cpp20 : Bool} {A : Arr} {S : ShiftSem w} {first last : BitIter w} (hb : first.base ≠ last.base)
    (hp : first.pos ≠ if last.pos = 0 then 0 else w - last.pos) : Never (reverse cpp20 A S first last) := by
  unfold reverse
  refine never_after fun _ => never_ite (fun h => ?_) fun h1 => never_ite (fun _ => ?_) fun h2 => by omega
  · rw [if_pos h.2] at hp; omega
  · exact never_after fun _ => never_after fun _ => never_after fun _ => never_after fun _ => never_after fun _ => never_after fun _ => never_after fun _ =>
      never_after fun _ => (never_reverseShift hp).bind _

/-! ### swap_ranges -/

theorem swapAligned_true (A B : Arr) (S : ShiftSem w) (first1 last1 first2 : BitIter w) :
    swapAligned true A B S first1 last1 first2 = within (Ptr.swapAligned A B S first1 last1 first2) := by
  unfold swapAligned Ptr.swapAligned
  simp only [enter_std, within_bind, within_ite, pure_bind, or_true]

theorem never_swapAligned (A B : Arr) (S : ShiftSem w) (first1 last1 first2 : BitIter w) : Never (swapAligned false A B S first1 last1 first2) := by
  unfold swapAligned
  exact never_after fun _ => never_after fun _ => never_after fun _ => (never_enter _).bind _

theorem never_swapMisaligned (A B : Arr) (S : ShiftSem w) (first1 first2 : BitIter w) : Never (swapMisaligned A B S first1 first2 : CM w α) := by
  unfold swapMisaligned
  exact never_after fun _ => never_stop _

theorem swapRanges_empty {cpp20 : Bool} {A B : Arr} {S : ShiftSem w} {first1 last1 first2 : BitIter w} (h : first1.beq last1 = true) :
    swapRanges cpp20 A B S first1 last1 first2 = within (Ptr.swapRanges A B S first1 last1 first2) := by
  unfold swapRanges Ptr.swapRanges
  simp only [h, if_true, within_bind, within_pure]

theorem swapRanges_true {A B : Arr} {S : ShiftSem w} {first1 last1 first2 : BitIter w}
    (hn : ¬ first1.base + (if last1.pos = 0 then 1 else 0) = last1.base) (hp : first1.pos = first2.pos) :
    swapRanges true A B S first1 last1 first2 = within (Ptr.swapRanges A B S first1 last1 first2) := by
  unfold swapRanges Ptr.swapRanges
  simp only [if_neg hn, if_pos hp, within_bind, within_ite, within_pure, swapAligned_true]

theorem never_swapRanges {cpp20 : Bool} {A B : Arr} {S : ShiftSem w} {first1 last1 first2 : BitIter w} (h : first1.beq last1 = false)
    (hn : first1.base + (if last1.pos = 0 then 1 else 0) = last1.base ∨ first1.pos ≠ first2.pos ∨ cpp20 = false) :
    Never (swapRanges cpp20 A B S first1 last1 first2) := by
  unfold swapRanges
  simp only [h, Bool.false_eq_true, if_false]
  refine never_after fun _ => never_after fun _ => never_ite (fun _ => never_stop _) fun h1 => never_ite (fun h2 => ?_) fun _ => never_swapMisaligned _ _ _ _ _
  rcases hn with hn | hn | rfl
  · exact absurd hn h1
  · exact absurd h2 hn
  · exact never_swapAligned _ _ _ _ _ _

theorem viable_error {first last : BitIter w} (h : ¬ first.addr ≤ last.addr) (m : Mem w) (r : Unit × Mem w) : assertViable first last m ≠ .ok r := by
  intro e
  have := (wp_assertViable (first := first) (last := last) (m := m) (Q := fun _ _ => True)).1 (by unfold wp; rw [e]; exact ⟨r.1, r.2, rfl, trivial⟩)
  exact h this.1

theorem not_viable {first last : BitIter w} (h : ¬ first.addr ≤ last.addr) : Never (within (Ptr.up (assertViable first last)) : CM w Unit) := by
  intro m r e
  exact viable_error h m r ((within_up _ _ _).1 e)

theorem not_viable_run {first last : BitIter w} (h : ¬ first.addr ≤ last.addr) (f : Unit → M w α) (m : Mem w) (r : α × Mem w) :
    (assertViable first last >>= f) m ≠ .ok r := by
  intro e
  replace e : (assertViable first last m >>= fun r => f r.1 r.2 : Except UB _) = .ok r := e
  cases hk : assertViable first last m with
  | error s => rw [hk] at e; cases e
  | ok x => exact viable_error h m x hk

/-! ### is_within -/

theorem isWithinAux_pure {A : Arr} {rem : Nat} : ∀ (k : Nat) {first last : BitIter w}, A.Has first → A.Has last → first.addr ≤ last.addr →
    (Ptr.isWithinAux A rem k first last : P w Bool) = pure (BitLib.isWithinAux rem k first last) := by
  intro k
  induction k with
  | zero =>
    intro first last h hl hle
    have hm := Arr.base_mono hl.valid hle
    have hlo := h.lo_base
    have hhi := hl.base_hi
    unfold Ptr.isWithinAux BitLib.isWithinAux
    split
    next h1 => simp [h1]
    next h1 =>
      have : first.base + 1 ≤ A.hi := by
        by_cases hb : first.base = last.base
        · have := hl.next_of_pos (by omega)
          omega
        · omega
      rw [Ptr.form_ok ⟨by omega, this⟩, pure_bind]
      rw [show (decide (first.base = last.base) && decide (first.pos + rem ≥ last.pos)) = false by simpa using h1]
      rfl
  | succ k ih =>
    intro first last h hl hle
    have hw := h.pos_w
    have hm := Arr.base_mono hl.valid hle
    have hlo := h.lo_base
    have hhi := hl.base_hi
    unfold Ptr.isWithinAux BitLib.isWithinAux
    split
    next h1 => simp only [h1, decide_true, Bool.true_or]
    next h1 =>
      rw [Ptr.form_ok ⟨by omega, by omega⟩, pure_bind]
      split
      next h2 =>
        rw [show (decide (first.base + 1 = last.base) && decide (first.pos ≥ last.pos)) = true by simp [h2]]
        simp only [Bool.or_true, Bool.true_or]
      next h2 =>
        rw [show (decide (first.base + 1 = last.base) && decide (first.pos ≥ last.pos)) = false by simpa using h2,
          show decide (first.base = last.base) = false by simpa using h1]
        have hb1 : (first.add (w : Int)) = ⟨first.base + 1, first.pos⟩ := by
          refine BitIter.addr_inj (BitIter.add_valid hw _ _) h.valid ?_
          rw [BitIter.add_addr hw, Arr.addr_eq, Arr.addr_eq]
          simp only
          rw [Ptr.mul_add_one]
          omega
        have hle' : (first.add (w : Int)).addr ≤ last.addr := by
          rw [hb1]
          have e1 : last.addr = last.base * w + last.pos := rfl
          have e2 : (⟨first.base + 1, first.pos⟩ : BitIter w).addr = (first.base + 1) * w + first.pos := rfl
          have hfp := h.valid
          unfold BitIter.Valid at hfp
          by_cases hb : first.base + 1 = last.base
          · rw [e1, e2, hb]; omega
          · have : (first.base + 1 + 1) * (w : Int) ≤ last.base * w := Int.mul_le_mul_of_nonneg_right (by omega) (by omega)
            rw [Int.add_mul] at this
            omega
        have ha : A.Has (first.add (w : Int)) := by
          have := h.lo_le
          have := hl.le_hi
          have e := BitIter.add_addr hw first (w : Int)
          exact h.add (by omega) (by omega)
        unfold Ptr.add
        rw [Ptr.form_ok ⟨by have := ha.lo_base; omega, ha.base_hi⟩, pure_bind, pure_bind, ih ha hl hle']
        rfl

end CE
end BitLib
