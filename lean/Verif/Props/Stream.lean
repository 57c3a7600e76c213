import Verif.Model.Stream
import Verif.Lemmas.Ref
import Verif.Props.Run
/- C52: stream insertion and extraction of bits. -/
namespace BitLib
variable {w : Nat} {C : Type}

/-- The digits are different characters and not white space (true of every usable locale). -/
def Chars.Usable (L : Chars C) : Prop := L.zero ≠ L.one ∧ L.isSpace L.zero = false ∧ L.isSpace L.one = false

/-- The digit that stands for a bit. -/
def Chars.digit (L : Chars C) (b : Bool) : C := if b then L.one else L.zero

/-- Characters that the stream skips before a formatted extraction: white space if `skipws` is set, none otherwise. -/
def Skipped (L : Chars C) (s : IStream C) (ws : List C) : Prop :=
  if s.skipws then (∀ c ∈ ws, L.isSpace c = true) else ws = []

/-- `c` is where skipping stops. -/
def Stops (L : Chars C) (s : IStream C) (c : C) : Prop := s.skipws = true → L.isSpace c = false

theorem sentry_ok (L : Chars C) (s : IStream C) (ws : List C) (c : C) (r : List C) (hg : s.good = true)
    (hr : s.rest = ws ++ c :: r) (hs : Skipped L s ws) (hc : Stops L s c) :
    s.sentry L = (true, { s with rest := c :: r }) := by
  unfold IStream.sentry
  rw [if_pos hg]
  unfold Skipped at hs
  by_cases hk : s.skipws = true
  · rw [if_pos hk] at hs
    rw [if_pos hk]
    have hd : s.rest.dropWhile L.isSpace = c :: r := by
      rw [hr]
      clear hr
      induction ws with
      | nil => simp [hc hk]
      | cons x xs ih =>
        rw [List.cons_append, List.dropWhile_cons_of_pos (hs x (by simp))]
        exact ih (fun y hy => hs y (by simp [hy]))
    rw [hd]
    simp
  · rw [if_neg hk] at hs
    subst hs
    rw [List.nil_append] at hr
    rw [if_neg hk, ← hr]

theorem sentry_end (L : Chars C) (s : IStream C) (hg : s.good = true) (hk : s.skipws = true)
    (hs : ∀ c ∈ s.rest, L.isSpace c = true) :
    s.sentry L = (false, match s.atEnd with
      | .eof => { s with rest := [], eofbit := true, failbit := true }
      | .throws => { s with rest := [], badbit := true, failbit := true }) := by
  unfold IStream.sentry
  have hd : s.rest.dropWhile L.isSpace = [] := by
    generalize s.rest = l at hs
    induction l with
    | nil => rfl
    | cons x xs ih =>
      rw [List.dropWhile_cons_of_pos (hs x (by simp))]
      exact ih (fun y hy => hs y (by simp [hy]))
  rw [if_pos hg, if_pos hk, hd]
  cases s.atEnd <;> rfl

variable [DecidableEq C]

/-- C52, extraction of a digit: the white space and exactly one further character are consumed, the target gets the bit, and the
stream state does not change. -/
theorem C52_extract_digit (L : Chars C) (hL : L.Usable) (s : IStream C) (x : BitVal) (ws r : List C) (b : Bool)
    (hg : s.good = true) (hr : s.rest = ws ++ L.digit b :: r) (hs : Skipped L s ws) :
    extractVal L s x = ({ s with rest := r }, ⟨b⟩) := by
  have hc : Stops L s (L.digit b) := fun _ => by cases b <;> simp [Chars.digit, hL.2.1, hL.2.2]
  unfold extractVal extractCore
  rw [sentry_ok L s ws _ r hg hr hs hc]
  dsimp only
  cases b
  · simp [Chars.digit, IStream.setstate]
  · have h1 : L.digit true ≠ L.zero := fun h => hL.1 h.symm
    have h2 : L.digit true = L.one := rfl
    simp only [if_true, if_neg h1, if_pos h2, IStream.setstate, Bool.or_false]

/-- C52, extraction of another character: the stream fails (and only `failbit` is set), the target keeps its value, and the
character is back in the stream. -/
theorem C52_extract_other (L : Chars C) (s : IStream C) (x : BitVal) (ws r : List C) (c : C)
    (hg : s.good = true) (hr : s.rest = ws ++ c :: r) (hs : Skipped L s ws) (hc : Stops L s c) (h0 : c ≠ L.zero) (h1 : c ≠ L.one)
    (hp : s.canPutback = true) :
    extractVal L s x = ({ s with rest := c :: r, failbit := true }, x) := by
  unfold extractVal extractCore
  rw [sentry_ok L s ws _ r hg hr hs hc]
  simp [h0, h1, hp, IStream.setstate]

/-- C52, when the buffer cannot take the character back, it is lost; the stream fails and the target keeps its value. -/
theorem C52_extract_no_putback (L : Chars C) (s : IStream C) (x : BitVal) (ws r : List C) (c : C)
    (hg : s.good = true) (hr : s.rest = ws ++ c :: r) (hs : Skipped L s ws) (hc : Stops L s c) (h0 : c ≠ L.zero) (h1 : c ≠ L.one)
    (hp : s.canPutback = false) :
    extractVal L s x = ({ s with rest := r, failbit := true }, x) := by
  unfold extractVal extractCore
  rw [sentry_ok L s ws _ r hg hr hs hc]
  simp [h0, h1, hp, IStream.setstate]

/-- C52, nothing but skipped characters: everything is consumed, the stream is at its end (`eofbit`, or `badbit` if the
buffer throws) and failed, the target keeps its value. -/
theorem C52_extract_end (L : Chars C) (s : IStream C) (x : BitVal) (hg : s.good = true) (hs : Skipped L s s.rest) :
    extractVal L s x = ({ s with rest := [], eofbit := decide (s.atEnd = .eof), badbit := decide (s.atEnd = .throws), failbit := true }, x) := by
  have hbits : s.eofbit = false ∧ s.failbit = false ∧ s.badbit = false := by
    revert hg
    unfold IStream.good
    cases s.eofbit <;> cases s.failbit <;> cases s.badbit <;> simp
  unfold Skipped at hs
  unfold extractVal extractCore
  by_cases hk : s.skipws = true
  · rw [if_pos hk] at hs
    rw [sentry_end L s hg hk hs]
    cases he : s.atEnd <;> simp [IStream.setstate, hbits]
  · rw [if_neg hk] at hs
    have : s.sentry L = (true, s) := by unfold IStream.sentry; rw [if_pos hg, if_neg hk]
    rw [this]
    simp only [hs]
    cases he : s.atEnd <;> simp [IStream.setstate, hbits, he, hs]

/-- C52, a stream that is not good: nothing is read, it is failed, the target keeps its value. -/
theorem C52_extract_not_good (L : Chars C) (s : IStream C) (x : BitVal) (hg : s.good = false) :
    extractVal L s x = ({ s with failbit := true }, x) := by
  unfold extractVal extractCore IStream.sentry
  simp [hg, IStream.setstate]

omit [DecidableEq C] in
/-- The cases above are all there are. -/
theorem C52_extract_cases (L : Chars C) (s : IStream C) :
    s.good = false ∨ Skipped L s s.rest ∨ ∃ ws c r, s.rest = ws ++ c :: r ∧ Skipped L s ws ∧ Stops L s c := by
  by_cases hk : s.skipws = true
  · right
    unfold Skipped Stops
    simp only [hk, if_true, true_implies]
    generalize s.rest = l
    induction l with
    | nil => left; simp
    | cons x xs ih =>
      by_cases hx : L.isSpace x = true
      · rcases ih with h | ⟨ws, c, r, h1, h2, h3⟩
        · left; intro c hc; rcases List.mem_cons.1 hc with rfl | h'
          · exact hx
          · exact h c h'
        · right
          refine ⟨x :: ws, c, r, by rw [h1]; rfl, ?_, h3⟩
          intro y hy; rcases List.mem_cons.1 hy with rfl | h'
          · exact hx
          · exact h2 y h'
      · right; exact ⟨[], x, xs, rfl, by simp, by simpa using hx⟩
  · right
    unfold Skipped Stops
    simp only [if_neg hk]
    cases hr : s.rest with
    | nil => left; rfl
    | cons c r => right; exact ⟨[], c, r, rfl, rfl, fun h => absurd h hk⟩

/-- C52: extraction into a bit of a word: the stream behaves as for a `bit_value` that holds the bit, the designated
bit becomes the value it would get, and no other bit changes. -/
theorem C52_extract_ref (L : Chars C) (s : IStream C) (m : Mem w) (x : BitRef w) (a : Int) (b : Bool)
    (hx : x.At a) (hb : bitAt m a = some b) :
    ∃ m', extractRef L s x m = .ok ((extractVal L s ⟨b⟩).1, m') ∧ OneBit m m' a (extractVal L s ⟨b⟩).2.value := by
  have hs : (bitAt m a).isSome := by rw [hb]; rfl
  have key : wp (extractRef L s x) m (fun r m' => r = (extractVal L s ⟨b⟩).1 ∧ OneBit m m' a (extractVal L s ⟨b⟩).2.value) := by
    unfold extractRef
    rw [wp_bind]
    unfold BitRef.toVal
    rw [wp_bind]
    refine wp_refRead hx hb ?_
    rw [wp_pure]
    dsimp only
    unfold extractVal
    dsimp only
    generalize extractCore L s b = e
    obtain ⟨s', tmp, ok, eof, fail⟩ := e
    dsimp only
    cases ok
    · simp only [Bool.false_eq_true, if_false]
      rw [wp_pure]
      refine ⟨rfl, ?_⟩
      intro i
      split
      · rename_i h; rw [h, hb]
      · rfl
    · simp only [if_true]
      rw [wp_bind]
      refine wp_refSetTo (v := tmp) hx hs ?_
      intro m' hm'
      rw [wp_pure]
      exact ⟨rfl, hm'⟩
  obtain ⟨r, m', h, rfl, h2⟩ := key
  exact ⟨m', h, h2⟩

omit [DecidableEq C] in
/-- C52, insertion: exactly one digit, padded to the width of the stream. -/
theorem C52_insert (L : Chars C) (o : OStream C) (b : Bool) (hg : o.good = true) :
    insertVal L o ⟨b⟩ = { o with
      out := o.out ++ (if o.left then L.digit b :: List.replicate (o.width - 1) o.fill else List.replicate (o.width - 1) o.fill ++ [L.digit b])
      width := 0 } := by
  unfold insertVal OStream.putChar
  rw [if_pos hg]
  rfl

omit [DecidableEq C] in
/-- C52: inserting a bit of a word writes what inserting its value writes and leaves the memory as it is. -/
theorem C52_insert_ref (L : Chars C) (o : OStream C) (m : Mem w) (x : BitRef w) (a : Int) (b : Bool)
    (hx : x.At a) (hb : bitAt m a = some b) : insertRef L o x m = .ok (insertVal L o ⟨b⟩, m) := by
  obtain ⟨r, m', h, h1, h2⟩ : wp (insertRef L o x) m (fun r m' => r = insertVal L o ⟨b⟩ ∧ m' = m) := by
    unfold insertRef
    rw [wp_bind]
    refine wp_refRead hx hb ?_
    rw [wp_pure]
    exact ⟨rfl, rfl⟩
  rw [h, h1, h2]

/-- C52, round trip: what the insertion wrote, followed by anything, extracts to the same bit. `hf`: the field is not padded on the
left, or padded with characters that the input stream skips (the default is `width() == 0`: no padding). -/
theorem C52_round_trip (L : Chars C) (hL : L.Usable) (o : OStream C) (s : IStream C) (b : Bool) (x : BitVal) (more : List C)
    (ho : o.good = true) (hs : s.good = true) (hr : o.out ++ s.rest = (insertVal L o ⟨b⟩).out ++ more)
    (hf : o.width ≤ 1 ∨ o.left = true ∨ (s.skipws = true ∧ L.isSpace o.fill = true)) :
    (extractVal L s x).2 = ⟨b⟩ ∧ (extractVal L s x).1.good = true ∧
    (extractVal L s x).1.rest = (if o.left then List.replicate (o.width - 1) o.fill else []) ++ more := by
  rw [C52_insert L o b ho] at hr
  dsimp only at hr
  rw [List.append_assoc] at hr
  have hr := List.append_cancel_left hr
  by_cases hl : o.left = true
  · rw [if_pos hl] at hr
    rw [C52_extract_digit L hL s x [] (List.replicate (o.width - 1) o.fill ++ more) b hs (by rw [hr]; rfl)
      (by unfold Skipped; split <;> simp), if_pos hl]
    exact ⟨rfl, hs, rfl⟩
  · rw [if_neg hl] at hr
    rw [C52_extract_digit L hL s x (List.replicate (o.width - 1) o.fill) more b hs (by rw [hr, List.append_assoc]; rfl) (by
      unfold Skipped
      rcases hf with h | h | ⟨h1, h2⟩
      · rw [show o.width - 1 = 0 by omega]; split <;> simp
      · exact absurd h hl
      · rw [if_pos h1]; intro c hc; rw [List.eq_of_mem_replicate hc]; exact h2), if_neg hl]
    exact ⟨rfl, hs, rfl⟩

/-- The condition on the padding is needed: padded with `0` to width 2, the bit 1 is written `01` and extracted as 0. -/
theorem C52_padding_needed (L : Chars C) (hL : L.Usable) :
    ∃ (o : OStream C) (s : IStream C), o.good = true ∧ s.good = true ∧ o.out ++ s.rest = (insertVal L o ⟨true⟩).out ∧
      (extractVal L s ⟨true⟩).2 = ⟨false⟩ := by
  refine ⟨⟨[], 2, L.zero, false, true, false⟩, ⟨[L.zero, L.one], .eof, true, true, false, false, false⟩, rfl, rfl, rfl, ?_⟩
  rw [C52_extract_digit L hL _ _ [] [L.one] false rfl rfl (by unfold Skipped; simp)]

/-- Insert a list of bits one after the other. -/
def insertAll (L : Chars C) (o : OStream C) : List Bool → OStream C
  | [] => o
  | b :: bs => insertAll L (insertVal L o ⟨b⟩) bs

/-- Extract `n` bits one after the other, each into a variable that held `x`. -/
def extractAll (L : Chars C) (x : BitVal) : IStream C → Nat → IStream C × List BitVal
  | s, 0 => (s, [])
  | s, n+1 =>
    let (s, v) := extractVal L s x
    let (s, vs) := extractAll L x s n
    (s, v :: vs)

/-- C52, any number of bits, unpadded: extracting as many bits as were inserted yields them in order,
and leaves the stream just behind them. -/
theorem C52_round_trip_list (L : Chars C) (hL : L.Usable) (o : OStream C) (s : IStream C) (bs : List Bool) (x : BitVal) (more : List C)
    (ho : o.good = true) (hw : o.width = 0) (hs : s.good = true) (hr : o.out ++ s.rest = (insertAll L o bs).out ++ more) :
    extractAll L x s bs.length = ({ s with rest := more }, bs.map BitVal.mk) := by
  have key : ∀ (bs : List Bool) (o : OStream C), o.good = true → o.width = 0 →
      (insertAll L o bs).out = o.out ++ bs.map L.digit := by
    intro bs
    induction bs with
    | nil => intro o _ _; simp [insertAll]
    | cons b bs ih =>
      intro o h1 h2
      rw [insertAll, C52_insert L o b h1, ih _ (by exact h1) rfl]
      simp only [h2, List.map_cons]
      cases o.left <;> simp
  have main : ∀ (bs : List Bool) (s : IStream C), s.good = true → s.rest = bs.map L.digit ++ more →
      extractAll L x s bs.length = ({ s with rest := more }, bs.map BitVal.mk) := by
    intro bs
    induction bs with
    | nil => intro s _ hr; rw [List.map_nil, List.nil_append] at hr; simp [extractAll, ← hr]
    | cons b bs ih =>
      intro s hs hr
      rw [List.length_cons, extractAll, C52_extract_digit L hL s x [] (bs.map L.digit ++ more) b hs (by rw [hr]; rfl)
        (by unfold Skipped; split <;> simp)]
      dsimp only
      rw [ih { s with rest := bs.map L.digit ++ more } hs rfl]
      rfl
  rw [key bs o ho hw, List.append_assoc] at hr
  exact main bs s hs (List.append_cancel_left hr)

/-- Characters of the "C" locale. -/
def asciiChars : Chars Char := ⟨fun c => c.isWhitespace, '0', '1'⟩

example : asciiChars.Usable := by unfold Chars.Usable asciiChars; decide
example : (extractVal asciiChars ⟨" \t10".toList, .eof, true, true, false, false, false⟩ ⟨false⟩) =
    (⟨"0".toList, .eof, true, true, false, false, false⟩, ⟨true⟩) := by decide
example : (extractVal asciiChars ⟨" x1".toList, .eof, true, true, false, false, false⟩ ⟨true⟩) =
    (⟨"x1".toList, .eof, true, true, false, true, false⟩, ⟨true⟩) := by decide
example : (extractVal asciiChars ⟨"  ".toList, .eof, true, true, false, false, false⟩ ⟨true⟩) =
    (⟨[], .eof, true, true, true, true, false⟩, ⟨true⟩) := by decide
/-- The hypotheses of `C52_round_trip_list`: three bits written, then read back from a stream that goes on with " 1". -/
example : let o : OStream Char := ⟨[], 0, ' ', false, true, false⟩
    let s : IStream Char := ⟨"101 1".toList, .eof, true, true, false, false, false⟩
    o.good = true ∧ o.width = 0 ∧ s.good = true ∧ o.out ++ s.rest = (insertAll asciiChars o [true, false, true]).out ++ " 1".toList := by decide

end BitLib
