import Verif.Props.Programs
import Verif.Model.IterOps
/-
The repository's test suite: test/src/test-*.cpp, test/src/vector_test.cpp, utils/test_utils.hpp.

A test makes the same calls on `bit_vector`s and on `std::vector<bool>`s and compares answers and elements. The `std::vector<bool>`s are plain
lists. Random numbers are arguments: a theorem for all arguments in the range of the draw speaks about every run of the test. The vectors of
the fixture are arguments too (see `setUpOne` for how the fixture makes one). Iterators handed from one statement to the next are positions
counted from `begin()`.
-/
namespace BitLib.Tests
open Op (at')
variable {w : Nat}

/-! ### Comparisons -/

/-- The loop of `std::equal(first, last, d, comparator)`: bits on the left, `std::vector<bool>` elements on the right.
utils/test_utils.hpp:34-36, `comparator` converts both to `bool`. -/
def sameBits (S : ShiftSem w) : Nat → BitIter w → BitIter w → List Bool → M w Bool
  | 0, _, _, _ => ub .outOfFuel
  | fuel + 1, first, last, l =>
    if first.bne last then
      match l with
      | [] => ub .badRange
      | b :: rest => do
        let r ← lift (first.deref S)
        let x ← r.toBool
        if x = b then sameBits S fuel first.inc last rest else pure false
    else pure true

/-- `std::equal(first, last, l.begin(), l.end(), comparator)` for random access iterators (libstdc++): lengths first, then elements. -/
def equalBits (S : ShiftSem w) (first last : BitIter w) (l : List Bool) : M w Bool :=
  if last.diff first = (l.length : Int) then sameBits S (l.length + 1) first last l else pure false

/-- A comparison made after a call. `before` and `after` use the iterators that the two calls returned. -/
inductive Check where
  /-- `EXPECT_TRUE(std::equal(bitvec.begin(), bitvec.end(), boolvec.begin(), boolvec.end(), comparator))` -/
  | all (i : Nat)
  /-- `EXPECT_TRUE(std::equal(bitvec.begin(), bitret, boolvec.begin(), boolret, comparator))` -/
  | before (i : Nat)
  /-- `EXPECT_TRUE(std::equal(bitret, bitvec.end(), boolret, boolvec.end(), comparator))` -/
  | after (i : Nat)

def Check.run (S : ShiftSem w) (vs : List BV) (bs : List (List Bool)) (bitret boolret : Ans) : Check → V w Bool
  | all i => withVec vs i fun v => onMem (equalBits S v.begin v.end (at' bs i))
  | before i => withVec vs i fun v =>
    match bitret, boolret with
    | .pos p, .pos q => onMem (equalBits S v.begin (v.begin.add p) ((at' bs i).take q.toNat))
    | _, _ => pure false
  | after i => withVec vs i fun v =>
    match bitret, boolret with
    | .pos p, .pos q => onMem (equalBits S (v.begin.add p) v.end ((at' bs i).drop q.toNat))
    | _, _ => pure false

/-! ### Calls -/

/-- A call made by a test: those of `Call`, and the modifying members of `bit_vector` whose returned iterator is examined. -/
inductive Act (w : Nat) where
  | call (c : Call w)
  | insert (i d : Nat) (x : Bool)
  | insertN (i d n : Nat) (x : Bool)
  | insertRange (i d j a b : Nat)
  | erase (i d : Nat)
  | eraseRange (i a b : Nat)
  /-- `bitvec[k] = ~bitvec[k]` -/
  | flip (i k : Nat)
  /-- `bitvec.at(k)` in a `try` block: the element, or the answer `unit` if `out_of_range` was thrown -/
  | at_ (i k : Nat)

/-- The call on `bit_vector`s. -/
def Act.exec (S : ShiftSem w) (P : Policy) (vs : List BV) : Act w → V w (List BV × Ans)
  | call c => c.exec S P vs
  | insert i d x => withVec vs i fun v => v.insert S P (Call.it v d) x >>= fun r => pure (vs.set i r.1, .pos (r.2.diff r.1.begin))
  | insertN i d n x => withVec vs i fun v => v.insertN S P (Call.it v d) n x >>= fun r => pure (vs.set i r.1, .pos (r.2.diff r.1.begin))
  | insertRange i d j a b => withVec vs i fun v => withVec vs j fun o =>
      v.insertRange S P (Call.it v d) (Call.it o a) (Call.it o b) >>= fun r => pure (vs.set i r.1, .pos (r.2.diff r.1.begin))
  | erase i d => withVec vs i fun v => v.erase S (Call.it v d) >>= fun r => pure (vs.set i r.1, .pos (r.2.diff r.1.begin))
  | eraseRange i a b => withVec vs i fun v => v.eraseRange S P (Call.it v a) (Call.it v b) >>= fun r =>
      pure (vs.set i r.1, .pos (r.2.diff r.1.begin))
  | flip i k => withVec vs i fun v => v.get S k >>= fun x => v.set S k (!x) >>= fun v' => pure (vs.set i v', .unit)
  | at_ i k => withVec vs i fun v => fun h =>
    match (v.at_ S k >>= fun r => onMem r.toBool) h with
    | .ok (x, h') => .ok ((vs, .bool x), h')
    | .error (.throw .outOfRange) => .ok ((vs, .unit), h)
    | .error e => .error e

/-- The call of the standard library on `std::vector<bool>`s. For the shifts the tests call `bit::word_shift_left` and
`bit::word_shift_right` (bit_algorithm_details.hpp:277-307), which move elements and leave the vacated ones as they are. -/
def stdCall (bs : List (List Bool)) : Call w → List (List Bool) × Ans
  | .vec op => (op.apply bs, .unit)
  | .copy j a b i d | .move j a b i d => (bs.set i (splice (at' bs i) d (slice (at' bs j) a b)), .pos ((d + (b - a) : Nat) : Int))
  | .copyBackward j a b i d => (bs.set i (splice (at' bs i) d (slice (at' bs j) a b)), .pos (d : Int))
  | .fill i a b x => (bs.set i (splice (at' bs i) a (List.replicate (b - a) x)), .unit)
  | .reverse i a b => (bs.set i (splice (at' bs i) a (slice (at' bs i) a b).reverse), .unit)
  | .rotate i a k b => (bs.set i (splice (at' bs i) a (slice (at' bs i) k b ++ slice (at' bs i) a k)), .pos ((a + (b - k) : Nat) : Int))
  | .shiftLeft i a b n =>
    if n = 0 then (bs, .pos (b : Int))
    else if b ≤ a + n then (bs, .pos (a : Int))
    else (bs.set i (splice (at' bs i) a (slice (at' bs i) (a + n) b)), .pos ((b - n : Nat) : Int))
  | .shiftRight i a b n =>
    if n = 0 then (bs, .pos (a : Int))
    else if b ≤ a + n then (bs, .pos (b : Int))
    else (bs.set i (splice (at' bs i) (a + n) (slice (at' bs i) a (b - n))), .pos ((a + n : Nat) : Int))
  | .swapRanges i a b j k =>
    let bs1 := bs.set i (splice (at' bs i) a (slice (at' bs j) k (k + (b - a))))
    (bs1.set j (splice (at' bs1 j) k (slice (at' bs i) a b)), .pos ((k + (b - a) : Nat) : Int))
  | .transform _ f j a b i d => (bs.set i (splice (at' bs i) d ((slice (at' bs j) a b).map f)), .pos ((d + (b - a) : Nat) : Int))
  | .transform2 _ f j a b j2 c i d =>
    (bs.set i (splice (at' bs i) d (List.zipWith f (slice (at' bs j) a b) (slice (at' bs j2) c (c + (b - a))))), .pos ((d + (b - a) : Nat) : Int))
  | .find i a b x => (bs, .pos ((a + (slice (at' bs i) a b).findIdx (· == x) : Nat) : Int))
  | .count i a b x => (bs, .num ((slice (at' bs i) a b).count x : Int))
  | .equal i a b j c => (bs, .bool (decide (slice (at' bs i) a b = slice (at' bs j) c (c + (b - a)))))
  | .size i => (bs, .num ((at' bs i).length : Int))
  | .get i k => (bs, .bool (((at' bs i)[k]?).getD false))
  | .debugString i => (bs, .text (grouped w 0 (at' bs i)))

def Act.std (bs : List (List Bool)) : Act w → List (List Bool) × Ans
  | call c => stdCall bs c
  | insert i d x => ((Op.insert i d x : Op w).apply bs, .pos (d : Int))
  | insertN i d n x => ((Op.insertN i d n x : Op w).apply bs, .pos (d : Int))
  | insertRange i d j a b => ((Op.insertRange i d j a b : Op w).apply bs, .pos (d : Int))
  | erase i d => ((Op.erase i d : Op w).apply bs, .pos (d : Int))
  | eraseRange i a b => ((Op.eraseRange i a b : Op w).apply bs, .pos (a : Int))
  | flip i k => (bs.set i ((at' bs i).set k (!((at' bs i)[k]?).getD false)), .unit)
  | at_ i k => (bs, if k < (at' bs i).length then .bool (((at' bs i)[k]?).getD false) else .unit)

/-- One statement of a test: a call on both sides, `EXPECT_EQ` of the two answers if `answer`, and comparisons of elements. -/
structure Step (w : Nat) where
  act : Act w
  answer : Bool
  checks : List Check

/-- A test: statements that see the present `std::vector<bool>`s (for sizes). -/
abbrev Prog (w : Nat) := List (List (List Bool) → Step w)

def runChecks (S : ShiftSem w) (vs : List BV) (bs : List (List Bool)) (a b : Ans) : List Check → V w Bool
  | [] => pure true
  | c :: cs => c.run S vs bs a b >>= fun x => runChecks S vs bs a b cs >>= fun y => pure (x && y)

/-- Run a test. The boolean says whether every expectation was met; a failed expectation does not stop the test. -/
def run (S : ShiftSem w) (P : Policy) : Prog w → List BV → List (List Bool) → V w ((List BV × List (List Bool)) × Bool)
  | [], vs, bs => pure ((vs, bs), true)
  | f :: fs, vs, bs =>
    (f bs).act.exec S P vs >>= fun r =>
    runChecks S r.1 ((f bs).act.std bs).1 r.2 ((f bs).act.std bs).2 (f bs).checks >>= fun c =>
    run S P fs r.1 ((f bs).act.std bs).1 >>= fun t =>
    pure (t.1, (!(f bs).answer || decide (r.2 = ((f bs).act.std bs).2)) && c && t.2)

/-- `for (idx = i; ...; ++idx)` with one draw for every round. -/
def loop {D : Type} (iter : Nat → D → Prog w) : Nat → List D → Prog w
  | _, [] => []
  | i, d :: ds => iter i d ++ loop iter (i + 1) ds

/-! ### The algorithm tests

`n bs i` is `bitvec.size()` of vector `i`. In the tests on two ranges the vectors are `random_bitvecs1[0..N)` followed by `random_bitvecs2[0..N)`.
-/

/-- `bitvecs[i].size()` -/
def sz (bs : List (List Bool)) (i : Nat) : Nat := (at' bs i).length

/-- The draws of the tests on two ranges: `start1`, `start2`, `end1` and, where present, the second `start2`. -/
structure Draw2 where
  start1 : Nat
  start2 : Nat
  end1 : Nat
  again : Nat

/-- test-copy.cpp:22-74 -/
def copyIter (N idx : Nat) (d : Draw2) : Prog w := [
  fun bs => ⟨.call (.copy idx d.start1 (sz bs idx - d.end1) (N + idx) d.start2), true, [.all (N + idx)]⟩,
  fun bs => ⟨.call (.copy idx d.start1 (sz bs idx - d.end1) idx d.again), true, [.all idx]⟩]

/-- test-move.cpp:22-74 -/
def moveIter (N idx : Nat) (d : Draw2) : Prog w := [
  fun bs => ⟨.call (.move idx d.start1 (sz bs idx - d.end1) (N + idx) d.start2), true, [.all (N + idx)]⟩,
  fun bs => ⟨.call (.move idx d.start1 (sz bs idx - d.end1) idx d.again), true, [.all idx]⟩]

/-- test-copy_backward.cpp:22-75 -/
def copyBackwardIter (N idx : Nat) (d : Draw2) : Prog w := [
  fun bs => ⟨.call (.copyBackward idx d.start1 (sz bs idx - d.end1) (N + idx) d.start2), true, [.all (N + idx)]⟩,
  fun bs => ⟨.call (.copyBackward idx d.start1 (sz bs idx - d.end1) idx d.again), true, [.all idx]⟩]

/-- test-equal.cpp:22-77 -/
def equalIter (N idx : Nat) (d : Draw2) : Prog w := [
  fun bs => ⟨.call (.equal idx d.start1 (sz bs idx - d.end1) (N + idx) d.start2), true, [.all (N + idx)]⟩,
  fun bs => ⟨.call (.copy idx d.start1 (sz bs idx - d.end1) (N + idx) d.start2), false, []⟩,
  fun bs => ⟨.call (.equal idx d.start1 (sz bs idx - d.end1) (N + idx) d.start2), true, [.all idx]⟩]

/-- test-swap_ranges.cpp:22-58 -/
def swapRangesIter (N idx : Nat) (d : Draw2) : Prog w := [
  fun bs => ⟨.call (.swapRanges idx d.start1 (sz bs idx - d.end1) (N + idx) d.start2), true, [.all (N + idx)]⟩]

/-- test-transform.cpp:23-63, `std::bit_not` -/
def transformUnaryIter (N idx : Nat) (d : Draw2) : Prog w := [
  fun bs => ⟨.call (.transform (fun x => ~~~x) (fun b => !b) idx d.start1 (sz bs idx - d.end1) (N + idx) d.start2), true, [.all (N + idx)]⟩]

/-- test-transform.cpp:65-106, `std::bit_and` -/
def transformBinaryIter (N idx : Nat) (d : Draw2) : Prog w := [
  fun bs => ⟨.call (.transform2 (fun x y => x &&& y) (fun a b => a && b) idx d.start1 (sz bs idx - d.end1) (N + idx) d.start2 (N + idx) d.start2),
    true, [.all (N + idx)]⟩]

/-- test-fill.cpp:22-58. Draws: `start`, `end`, twice. -/
def fillIter (idx : Nat) (d : (Nat × Nat) × (Nat × Nat)) : Prog w := [
  fun _ => ⟨.call (.size idx), true, []⟩,
  fun bs => ⟨.call (.fill idx d.1.1 (sz bs idx - d.1.2) true), false, [.all idx]⟩,
  fun bs => ⟨.call (.fill idx d.2.1 (sz bs idx - d.2.2) false), false, [.all idx]⟩]

/-- Work on a copy of vector `idx`, which is destroyed in the end. The copy is the last vector. -/
def onCopy (idx : Nat) (body : Prog w) : Prog w :=
  (fun _ => ⟨.call (.vec (.newCopy idx)), false, []⟩) :: body ++ [fun bs => ⟨.call (.vec (.destroy (bs.length - 1))), false, []⟩]

/-- test-count.cpp:22-37, one element of `ds` for each of the 16 draws of `start`. -/
def countIter (idx : Nat) (ds : List Nat) : Prog w := onCopy idx <| ds.flatMap fun start => [
  fun bs => ⟨.call (.count (bs.length - 1) start (sz bs (bs.length - 1)) true), true, []⟩,
  fun bs => ⟨.call (.count (bs.length - 1) start (sz bs (bs.length - 1)) false), true, []⟩]

/-- test-find.cpp:22-37 -/
def findIter (idx : Nat) (ds : List Nat) : Prog w := onCopy idx <| ds.flatMap fun start => [
  fun bs => ⟨.call (.find (bs.length - 1) start (sz bs (bs.length - 1)) true), true, []⟩,
  fun bs => ⟨.call (.find (bs.length - 1) start (sz bs (bs.length - 1)) false), true, []⟩]

/-- test-reverse.cpp:22-37 -/
def reverseIter (idx : Nat) (ds : List Nat) : Prog w := onCopy idx <| ds.map fun start =>
  fun bs => ⟨.call (.reverse (bs.length - 1) start (sz bs (bs.length - 1))), false, [.all (bs.length - 1)]⟩

/-- test-rotate.cpp:23-44, one element of `ds` for each pair of draws `start`, `middle`. -/
def rotateIter (idx : Nat) (ds : List (Nat × Nat)) : Prog w := ds.map fun d =>
  fun bs => ⟨.call (.rotate idx d.1 d.2 (sz bs idx)), true, [.all idx]⟩

/-- test-shift.cpp:22-41. Draws: `start`, `shift_val`. -/
def shiftLeftIter (idx : Nat) (d : Nat × Nat) : Prog w := [
  fun _ => ⟨.call (.size idx), true, []⟩,
  fun bs => ⟨.call (.shiftLeft idx d.1 (sz bs idx) d.2), true, [.before idx]⟩]

/-- test-shift.cpp:44-63 -/
def shiftRightIter (idx : Nat) (d : Nat × Nat) : Prog w := [
  fun _ => ⟨.call (.size idx), true, []⟩,
  fun bs => ⟨.call (.shiftRight idx d.1 (sz bs idx) d.2), true, [.after idx]⟩]

/-! ### The tests of `bit_vector`

Vector `i` is `empty_vec` of the fixture, the random vectors have other numbers. Tests that only look at fixed values, addresses or capacities are
left out, but for `ShrinkToFit` (see below).
-/

/-- vector_test.cpp:358-379, `InsertAtEnd1`, one element of `ds` for each of the `64 * digits` draws. -/
def insertAtEnd1 (i : Nat) (ds : List Bool) : Prog w := ds.map fun x => fun bs => ⟨.insert i (sz bs i) x, true, [.all i]⟩

/-- vector_test.cpp:380-401, `InsertAtBegin1` -/
def insertAtBegin1 (i : Nat) (ds : List Bool) : Prog w := ds.map fun x => fun _ => ⟨.insert i 0 x, true, [.all i]⟩

/-- vector_test.cpp:403-425, `InsertAtRand1`. Draws: the position, the value. -/
def insertAtRand1 (i : Nat) (ds : List (Nat × Bool)) : Prog w := ds.map fun d => fun _ => ⟨.insert i d.1 d.2, true, [.all i]⟩

/-- vector_test.cpp:427-449, `InsertAtBegin2`. Draws: the number of copies. -/
def insertAtBegin2 (i : Nat) (ds : List Nat) : Prog w := ds.map fun n => fun _ => ⟨.insertN i 0 n true, true, [.all i]⟩

/-- vector_test.cpp:451-473, `InsertAtEnd2` -/
def insertAtEnd2 (i : Nat) (ds : List Nat) : Prog w := ds.map fun n => fun bs => ⟨.insertN i (sz bs i) n true, true, [.all i]⟩

/-- vector_test.cpp:475-498, `InsertAtRand2`. Draws: the number of copies, the position. -/
def insertAtRand2 (i : Nat) (ds : List (Nat × Nat)) : Prog w := ds.map fun d => fun _ => ⟨.insertN i d.2 d.1 true, true, [.all i]⟩

/-- vector_test.cpp:500-524, `InsertAtBegin3`. Draws: the number of the random vector, which is copied first. -/
def insertAtBegin3 (i : Nat) (ds : List Nat) : Prog w := ds.flatMap fun k =>
  onCopy k [fun bs => ⟨.insertRange i 0 (bs.length - 1) 0 (sz bs (bs.length - 1)), true, [.all i]⟩]

/-- vector_test.cpp:526-550, `InsertAtEnd3` -/
def insertAtEnd3 (i : Nat) (ds : List Nat) : Prog w := ds.flatMap fun k =>
  onCopy k [fun bs => ⟨.insertRange i (sz bs i) (bs.length - 1) 0 (sz bs (bs.length - 1)), true, [.all i]⟩]

/-- vector_test.cpp:552-577, `InsertAtRand3`. Draws: the vector, the position. -/
def insertAtRand3 (i : Nat) (ds : List (Nat × Nat)) : Prog w := ds.flatMap fun d =>
  onCopy d.1 [fun bs => ⟨.insertRange i d.2 (bs.length - 1) 0 (sz bs (bs.length - 1)), true, [.all i]⟩]

/-- A statement that is skipped (`continue`) if vector `k` is empty; reading the size stands for the skipped statement. -/
def unlessEmpty (k : Nat) (f : List (List Bool) → Step w) : List (List Bool) → Step w := fun bs =>
  if sz bs k = 0 then ⟨.call (.size k), true, []⟩ else f bs

/-- vector_test.cpp:580-599, `EraseAtBegin1`. Draws: the vector. -/
def eraseAtBegin1 (ds : List Nat) : Prog w := ds.map fun k => unlessEmpty k fun _ => ⟨.erase k 0, true, [.all k]⟩

/-- vector_test.cpp:601-620, `EraseAtEnd1` -/
def eraseAtEnd1 (ds : List Nat) : Prog w := ds.map fun k => unlessEmpty k fun bs => ⟨.erase k (sz bs k - 1), true, [.all k]⟩

/-- vector_test.cpp:622-642, `EraseAtRand1`. Draws: the vector, the position. -/
def eraseAtRand1 (ds : List (Nat × Nat)) : Prog w := ds.map fun d => unlessEmpty d.1 fun _ => ⟨.erase d.1 d.2, true, [.all d.1]⟩

/-- vector_test.cpp:644-664, `EraseAtBegin2`. Draws: the vector, the number of elements. -/
def eraseAtBegin2 (ds : List (Nat × Nat)) : Prog w := ds.map fun d => unlessEmpty d.1 fun _ => ⟨.eraseRange d.1 0 d.2, true, [.all d.1]⟩

/-- vector_test.cpp:666-686, `EraseAtEnd2`. Draws: the vector, the position. -/
def eraseAtEnd2 (ds : List (Nat × Nat)) : Prog w := ds.map fun d => unlessEmpty d.1 fun bs => ⟨.eraseRange d.1 d.2 (sz bs d.1), true, [.all d.1]⟩

/-- vector_test.cpp:688-709, `EraseAtRand2`. Draws: the vector, the positions. -/
def eraseAtRand2 (ds : List (Nat × Nat × Nat)) : Prog w := ds.map fun d =>
  unlessEmpty d.1 fun _ => ⟨.eraseRange d.1 d.2.1 d.2.2, true, [.all d.1]⟩

/-- vector_test.cpp:712-730, `PushBack` on one vector. Draws: the values. -/
def pushBackIter (idx : Nat) (ds : List Bool) : Prog w := ds.map fun x => fun _ => ⟨.call (.vec (.push idx x)), false, [.all idx]⟩

/-- vector_test.cpp:733-749, `PopBack` on one vector, `n` times. -/
def popBackIter (idx n : Nat) : Prog w := List.replicate n fun _ => ⟨.call (.vec (.pop idx)), false, [.all idx]⟩

/-- vector_test.cpp:92-104, `BoolIterPairConstructor` -/
def boolIterPairIter (idx : Nat) : Prog w := [
  fun bs => ⟨.call (.vec (.newBoolRange (at' bs idx))), false, [.all bs.length]⟩,
  fun bs => ⟨.call (.vec (.destroy (bs.length - 1))), false, []⟩]

/-- vector_test.cpp:107-120, `CopyConstructor` -/
def copyConstructorIter (idx : Nat) : Prog w := [
  fun bs => ⟨.call (.vec (.newCopy idx)), false, [.all bs.length]⟩,
  fun bs => ⟨.call (.vec (.destroy (bs.length - 1))), false, []⟩]

/-- vector_test.cpp:138-158, the loop of `StringConstructor`. Draws: the characters of the strings. -/
def stringConstructor (i : Nat) (ds : List (List Char)) : Prog w := ds.flatMap fun s => [
  fun _ => ⟨.call (.vec (.newString s)), false, []⟩,
  fun bs => ⟨.call (.vec (.moveAssign i (bs.length - 1))), false, [.all i]⟩]

/-- vector_test.cpp:161-187, the second loop of `CopyAssignment`, without the comparison of addresses. The test expects
`bitvec[0] != empty_vec[0]` after the inversion; here the two elements are compared with the elements of the lists, which differ. -/
def copyAssignmentIter (i idx : Nat) : Prog w := [
  fun _ => ⟨.call (.vec (.copyAssign i idx)), false, [.all i]⟩,
  unlessEmpty idx fun _ => ⟨.flip idx 0, false, []⟩,
  unlessEmpty idx fun _ => ⟨.call (.get idx 0), true, []⟩,
  unlessEmpty idx fun _ => ⟨.call (.get i 0), true, []⟩]

/-- vector_test.cpp:190-210, the loop of `MoveAssignment`, without the comparison of addresses. -/
def moveAssignmentIter (i idx : Nat) : Prog w := [fun _ => ⟨.call (.vec (.moveAssign i idx)), false, [.all i]⟩]

/-- vector_test.cpp:232-241, `BracketRead` on one vector -/
def bracketReadIter (n idx : Nat) : Prog w := (List.range n).map fun k => fun _ => ⟨.call (.get idx k), true, []⟩

/-- vector_test.cpp:244-261, `BracketWrite` on one vector of `n` elements. The comparison is made after the loop. -/
def bracketWriteIter (n idx : Nat) : Prog w :=
  ((List.range n).map fun k => fun _ => ⟨.flip idx k, false, []⟩) ++ [fun _ => ⟨.call (.size idx), true, [.all idx]⟩]

/-- vector_test.cpp:264-277, `AtRead` on one vector: all positions, and `4 * digits` positions too many. -/
def atReadIter (n idx : Nat) : Prog w := (List.range (n + 4 * w)).map fun k => fun _ => ⟨.at_ idx k, true, []⟩

/-- vector_test.cpp:338-355, the loop of `Clear` -/
def clearIter (idx : Nat) : Prog w := [
  fun _ => ⟨.call (.vec (.clear idx)), false, []⟩,
  fun _ => ⟨.call (.size idx), true, []⟩,
  fun _ => ⟨.at_ idx 0, true, []⟩]

/-- `digits` times `pop_back()`. -/
def popN : Nat → BV → V w BV
  | 0, v => pure v
  | n + 1, v => v.popBack >>= fun v' => popN n v'

/-- vector_test.cpp:316-331, the loop of `ShrinkToFit` on one vector. -/
def shrinkIter (P : Policy) (v : BV) : V w (BV × Bool) :=
  popN w v >>= fun v1 => v1.shrinkToFit P >>= fun v2 => pure (v2, decide (v2.capacity w < v1.capacity w))

/-! ### The fixture -/

/-- `std::copy(random_vec.begin(), random_vec.end(), bitvec.begin().base())`: the words of a list stored from address `a` on. -/
def storeWords : List (BitVec w) → Int → M w Unit
  | [], _ => pure ()
  | x :: l, a => do
    store a x
    storeWords l (a + 1)

/-- fixtures.hpp:96-131, 152-196: one random vector, of `n` bits. `bit_vector(bit_size)`, the words of `random_vec`, `resize(n)`, the copy
that `push_back` puts into `random_bitvecs`, and the end of the local vector. -/
def setUpOne (P : Policy) (words : List (BitVec w)) (n : Nat) : V w BV :=
  BV.ofCount P (words.length * w) >>= fun v => onMem (storeWords words v.vec.ptr) >>= fun _ => v.resize P n >>= fun v' =>
    BV.copyOf P v' >>= fun r => v'.destroy >>= fun _ => pure r

/-- fixtures.hpp:96-131, 152-196: all random vectors, one after another. -/
def setUp (P : Policy) : List (List (BitVec w) × Nat) → List BV → V w (List BV)
  | [], vs => pure vs
  | x :: xs, vs => setUpOne P x.1 x.2 >>= fun v => setUp P xs (vs ++ [v])

end BitLib.Tests
