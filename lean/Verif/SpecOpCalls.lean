import Verif.Spec
/-
What `transform` is to do with an operation that is called, in terms of bits.

The bits of memory are a function `Int → Option Bool`. A range of `n` bits to be written at `d` is cut where the words of memory end. For each
piece, in order, the operation is called once with a word and answers with a word or throws.
-/
namespace BitLib.OpCalls
variable {w : Nat} {γ τ σ ε : Type}

/-- The word with the bits `f 0`, `f 1`, … -/
def wordOf : (w : Nat) → (Nat → Bool) → BitVec w
  | 0, _ => 0#0
  | w+1, f => BitVec.cons (f w) (wordOf w f)

/-- The word the operation is given for the piece of `l` bits at `d`, from the bits at `f`. The bits of the piece stand where they are to be written;
below them there are zeros. Above them there is what follows in memory up to the end of the word in which the source of the piece begins, also
when that is not in the range, and then zeros. -/
def seen (w : Nat) (b : Int → Option Bool) (f d : Int) (l : Nat) : BitVec w :=
  wordOf w fun i =>
    let p := (d % w).toNat
    decide (p ≤ i) && decide (i - p < max l (w - (f % w).toNat)) && (b (f + (i - p : Nat))).getD false

/-- The outcome of some calls: whether one threw, what the object holds and refers to, and the bits of memory. -/
structure Out (τ σ ε : Type) where
  thrown : Option ε
  own : τ
  shared : σ
  bits : Int → Option Bool

/-- Go on unless something was thrown. -/
def Out.andThen (o : Out τ σ ε) (k : τ → σ → (Int → Option Bool) → Out τ σ ε) : Out τ σ ε :=
  match o.thrown with
  | some _ => o
  | none => k o.own o.shared o.bits

/-- For pieces of the lengths `ls`, the first at `d + k`: call, stop if the call throws, otherwise write the bits of the piece from the result. Each
call sees what the previous ones have written. -/
def runPieces (op : γ → τ × σ → Except ε (BitVec w) × (τ × σ)) (arg : (Int → Option Bool) → Int → Nat → γ) (d : Int) :
    List Nat → Int → τ → σ → (Int → Option Bool) → Out τ σ ε
  | [], _, t, s, b => ⟨none, t, s, b⟩
  | l :: ls, k, t, s, b =>
    match op (arg b k l) (t, s) with
    | (.error e, t', s') => ⟨some e, t', s', b⟩
    | (.ok y, t', s') =>
      runPieces op arg d ls (k + l) t' s' fun a =>
        if d + k ≤ a ∧ a < d + k + l then some (y.getLsbD (a % w).toNat) else b a

/-- The bits of `[d, d + n)` before the first end of a word, if `d` is inside of a word. -/
def headLen (w : Nat) (d : Int) (n : Nat) : Nat :=
  if d % w = 0 then 0 else min n (w - (d % w).toNat)

/-- `[l]`, or nothing for an empty piece. -/
def piece (l : Nat) : List Nat := if l = 0 then [] else [l]

/-- The lengths of the pieces of `[d, d + n)`. -/
def pieces (w : Nat) (d : Int) (n : Nat) : List Nat :=
  let r := n - headLen w d n
  piece (headLen w d n) ++ List.replicate (r / w) w ++ piece (r % w)

/-- `transform` of `n` bits to `d`. `block`: the whole words are left to `std::transform`, which works with a copy of the function object; what its
calls change in the object is not there for the last piece. -/
def expected (op : γ → τ × σ → Except ε (BitVec w) × (τ × σ)) (arg : (Int → Option Bool) → Int → Nat → γ) (block : Bool) (d : Int) (n : Nat)
    (t : τ) (s : σ) (b : Int → Option Bool) : Out τ σ ε :=
  let h := headLen w d n
  let r := n - h
  { (runPieces op arg d (piece h) 0 t s b).andThen fun t1 s1 b1 =>
      (runPieces op arg d (List.replicate (r / w) w) h t1 s1 b1).andThen fun t2 s2 b2 =>
        runPieces op arg d (piece (r % w)) (h + (r / w : Nat) * w) (if block then t1 else t2) s2 b2 with own := t }

/-- Whether unary `transform` leaves the whole words to `std::transform`: the source is at the beginning of a word where the destination is, and
more than a word is left. -/
def block1 (w : Nat) (f d : Int) (n : Nat) : Bool :=
  decide ((f + headLen w d n) % w = 0 ∧ w < n - headLen w d n)

/-- Whether binary `transform` does. -/
def block2 (w : Nat) (f g d : Int) (n : Nat) : Bool :=
  decide ((f + headLen w d n) % w = 0 ∧ (g + headLen w d n) % w = 0 ∧ w < n - headLen w d n)

/-- The argument of the unary operation. -/
def arg1 (w : Nat) (f d : Int) (b : Int → Option Bool) (k : Int) (l : Nat) : BitVec w := seen w b (f + k) (d + k) l

/-- The arguments of the binary operation. -/
def arg2 (w : Nat) (f g d : Int) (b : Int → Option Bool) (k : Int) (l : Nat) : BitVec w × BitVec w :=
  (seen w b (f + k) (d + k) l, seen w b (g + k) (d + k) l)

/-- The number of words that hold bits of `[d, d + n)`. -/
def wordsOf (w : Nat) (d : Int) (n : Nat) : Nat :=
  if n = 0 then 0 else ((d + n - 1) / w - d / w + 1).toNat

end BitLib.OpCalls
