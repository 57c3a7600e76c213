import Verif.Model.Tests
/-
Vocabulary of C81: valid calls of a test, their limits, and whole tests.
-/
namespace BitLib.Tests
open Op (at')
variable {w : Nat}

/-- The precondition of a call, as for `std::vector<bool>`. -/
def Act.Pre (bs : List (List Bool)) : Act w → Prop
  | call c => c.Pre bs
  | insert i d x => (Op.insert i d x : Op w).Pre bs
  | insertN i d n x => (Op.insertN i d n x : Op w).Pre bs
  | insertRange i d j a b => (Op.insertRange i d j a b : Op w).Pre bs
  | erase i d => (Op.erase i d : Op w).Pre bs
  | eraseRange i a b => (Op.eraseRange i a b : Op w).Pre bs
  | flip i k => i < bs.length ∧ k < (at' bs i).length
  | at_ i _ => i < bs.length

/-- The limits of the library that have nothing to do with shifts of a whole word. -/
def Act.Size (bs : List (List Bool)) : Act w → Prop
  | call (.vec op) => op.SizeLim bs
  | call (.rotate _ a k b) => k < b ∧ RotFits w ((k : Int) - a) ((b : Int) - k)
  | call (.count i a _ _) => a < (at' bs i).length ∨ (at' bs i).length % w ≠ 0
  | call (.debugString i) => (at' bs i).length < 2 ^ 31
  | insertN i d n x => (Op.insertN i d n x : Op w).SizeLim bs
  | insertRange i d j a b => (Op.insertRange i d j a b : Op w).SizeLim bs
  | eraseRange i a b => (Op.eraseRange i a b : Op w).SizeLim bs
  | _ => True

/-- The call does not shift a word by its whole width. -/
def Act.Calm (bs : List (List Bool)) : Act w → Prop
  | call (.copyBackward _ a b _ d) => ¬ (a % w = 0 ∧ b % w = (d + (b - a)) % w ∧ a / w + 2 ≤ b / w)
  | call (.reverse _ a b) => ¬ (a % w ≠ 0 ∧ b = (a / w + 1) * w)
  | insert i d x => (Op.insert i d x : Op w).NoFullWord w bs
  | insertN i d n x => n = 0 ∨ (Op.insertN i d n x : Op w).NoFullWord w bs
  | insertRange i d j a b => a = b ∨ (Op.insertRange i d j a b : Op w).NoFullWord w bs
  | erase i d => (Op.erase i d : Op w).NoFullWord w bs
  | eraseRange i a b => (Op.eraseRange i a b : Op w).NoFullWord w bs
  | _ => True

/-- Not `shift_left` or `shift_right`, for which the two sides differ in the vacated elements. Calls of `insert` and `erase` are those that
return an iterator. -/
def Act.Plain : Act w → Prop
  | call (.shiftLeft ..) | call (.shiftRight ..) => False
  | call (.vec (.insert ..)) | call (.vec (.insertN ..)) | call (.vec (.insertRange ..)) | call (.vec (.erase ..)) |
    call (.vec (.eraseRange ..)) => False
  | _ => True

/-- A comparison of all elements of an existing vector. -/
def Check.Whole (bs : List (List Bool)) : Check → Prop
  | all i => i < bs.length
  | _ => False

/-- A valid statement. -/
structure Step.Valid (bs : List (List Bool)) (s : Step w) : Prop where
  plain : s.act.Plain
  pre : s.act.Pre bs
  size : s.act.Size bs
  checks : ∀ c ∈ s.checks, c.Whole (s.act.std bs).1

/-- Every statement of a test satisfies `p` in the state in which it is executed. -/
def Always (p : List (List Bool) → Step w → Prop) : Prog w → List (List Bool) → Prop
  | [], _ => True
  | f :: fs, bs => p bs (f bs) ∧ Always p fs ((f bs).act.std bs).1

/-- The state after a test. -/
def after : Prog w → List (List Bool) → List (List Bool)
  | [], bs => bs
  | f :: fs, bs => after fs ((f bs).act.std bs).1

/-- The precondition of every call holds, and its limits that have nothing to do with whole words. -/
def Valid (p : Prog w) (bs : List (List Bool)) : Prop := Always (fun bs s => s.Valid bs) p bs

/-- No call shifts a word by its whole width. -/
def Calm (p : Prog w) (bs : List (List Bool)) : Prop := Always (fun bs s => s.act.Calm bs) p bs

/-- The test ends, and every expectation is met. -/
def Passes (S : ShiftSem w) (P : Policy) (p : Prog w) (h : Heap w) (vs : List BV) (bs : List (List Bool)) : Prop :=
  ∃ vs' bs' h', run S P p vs bs h = .ok (((vs', bs'), true), h')

/-! ### What an expectation says -/

/-- The expectation of a comparison: the bits `ls` and the booleans `bs` are the same, from the first to the last or up to (from) the positions
`a` and `b` that the two calls returned. -/
def Check.Met (ls bs : List (List Bool)) (a b : Ans) : Check → Prop
  | all i => at' ls i = at' bs i
  | before i => ∃ p q : Nat, a = .pos (p : Int) ∧ b = .pos (q : Int) ∧ (at' ls i).take p = (at' bs i).take q
  | after i => ∃ p q : Nat, a = .pos (p : Int) ∧ b = .pos (q : Int) ∧ (at' ls i).drop p = (at' bs i).drop q

/-- The vector of the comparison exists, and the returned positions lie in it. -/
def Check.Defined (ls bs : List (List Bool)) (a b : Ans) : Check → Prop
  | all i => i < ls.length
  | before i | after i => i < ls.length ∧ ∃ p q : Nat, a = .pos (p : Int) ∧ b = .pos (q : Int) ∧ p ≤ (at' ls i).length ∧ q ≤ (at' bs i).length

/-! ### Fixtures and draws -/

/-- The vectors of the tests on two ranges: `random_bitvecs1[0..N)` are vectors `0..N`, `random_bitvecs2[0..N)` are vectors `N..2N`. Vectors with
the same index have the same size, and none is empty (fixtures.hpp:152-196). -/
structure TwoRanges (N : Nat) (bs : List (List Bool)) : Prop where
  len : 2 * N ≤ bs.length
  size : ∀ i, i < N → sz bs (N + i) = sz bs i ∧ 1 ≤ sz bs i

/-- The draws of the tests on two ranges, for vectors of `n` elements (test-copy.cpp:30-40 and the same lines elsewhere). -/
structure Draw2.InRange (w n : Nat) (d : Draw2) : Prop where
  start1 : d.start1 ≤ min (n - 1) (w + 1)
  start2 : d.start2 ≤ min (n - 1) (w + 1)
  low : d.start2 - d.start1 ≤ d.end1
  high : d.end1 ≤ max (d.start2 - d.start1) (min w (n - d.start1))

/-- The draws of a loop over vectors `0, 1, ..` are in the range `R`, which depends on the size of the vector. -/
def DrawsIn {D : Type} (R : Nat → D → Prop) (bs : List (List Bool)) (ds : List D) : Prop :=
  ∀ k (hk : k < ds.length), R (sz bs k) ds[k]

/-- test-fill.cpp:29-34, 43-48 -/
def FillRange (w n : Nat) (d : (Nat × Nat) × (Nat × Nat)) : Prop :=
  (d.1.1 ≤ min n (w + 1) ∧ d.1.2 ≤ min (w + 1) (n - d.1.1)) ∧ (d.2.1 ≤ min n (w + 1) ∧ d.2.2 ≤ min (w + 1) (n - d.2.1))

/-- test-count.cpp:29, test-find.cpp:29, test-reverse.cpp:29: every `start` in the range. -/
def StartRange (n : Nat) (ds : List Nat) : Prop := ∀ start ∈ ds, start ≤ min (n - 1) 16

/-- test-rotate.cpp:30-33 -/
def RotateRange (n : Nat) (ds : List (Nat × Nat)) : Prop := ∀ d ∈ ds, d.1 ≤ min (n - 1) 16 ∧ d.1 ≤ d.2 ∧ d.2 ≤ n - 1

/-- A round of the `CopyBackward` test that shifts a word by its whole width, for vectors of `n` elements. -/
def CopyBackwardBad (w n : Nat) (d : Draw2) : Prop :=
  d.start1 % w = 0 ∧ d.start1 / w + 2 ≤ (n - d.end1) / w ∧
    ((n - d.end1) % w = (d.start2 + (n - d.end1 - d.start1)) % w ∨ (n - d.end1) % w = (d.again + (n - d.end1 - d.start1)) % w)

/-- The draws of the shift tests (test-shift.cpp:29-32). -/
def ShiftRange (w n : Nat) (d : Nat × Nat) : Prop := d.1 ≤ min n (w + 1) ∧ d.2 ≤ n + 1

/-- A round of a shift test that shifts a word by its whole width: the elements from `start` on are one word. -/
def ShiftBad (w n : Nat) (d : Nat × Nat) : Prop := d.1 % w = 0 ∧ n - d.1 = w ∧ 0 < d.2 ∧ d.2 < w

/-- What there is to say about a test with valid calls: it passes where shifts by the whole width of a word are defined; it passes everywhere if no
call makes such a shift; and it is undefined for words that are not promoted to `int` if a call does. -/
structure Exactly (P : Policy) (p : Prog w) (h : Heap w) (vs : List BV) (bs : List (List Bool)) : Prop where
  promoted : ∀ S : ShiftSem w, S.FullShiftOk → Passes S P p h vs bs
  calm : Calm p bs → ∀ S : ShiftSem w, Passes S P p h vs bs
  undefined : ¬ Calm p bs → run (Unpromoted w) P p vs bs h = .error (.ub .overshift)

/-- Draws of a test that are made one round after another: `R` is the range of the draw in the state in which it is made. -/
def DrawsAlong {D : Type} (f : D → Prog w) (R : List (List Bool) → D → Prop) : List D → List (List Bool) → Prop
  | [], _ => True
  | d :: ds, bs => R bs d ∧ DrawsAlong f R ds (after (f d) bs)

end BitLib.Tests
