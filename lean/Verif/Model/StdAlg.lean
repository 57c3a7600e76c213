import Verif.Model.Client
/-
Algorithms of the C++ standard library on bit iterators, as programs that use the operations of the iterators only. They are not part of the
library; README.md:95 says that they work on bit iterators bit by bit, README.md:20 and 25 and the tests compare the library's algorithms with
them. The loops are those of the reference implementations (libstdc++ `stl_algobase.h`, `stl_algo.h`, without unrolling).

Iterator variables: 0 is `first`, 1 is `last`, 2 is the first (or, for `copy_backward`, the last) iterator of the second range, 3 that of the
third. Reference variables hold `*it`. A loop `while (first != last)` is given a number of rounds; `none` means that they were used up.
-/
namespace BitLib
namespace Std

/-- Call an operation that answers with a `bool`. -/
def ask {α : Type} (op : IOp) (k : Bool → Client (Option α)) : Client (Option α) :=
  .call op fun a =>
    match a with
    | .bool b => k b
    | _ => .done none

/-- Call an operation that answers with a number. -/
def askNum {α : Type} (op : IOp) (k : Int → Client (Option α)) : Client (Option α) :=
  .call op fun a =>
    match a with
    | .num n => k n
    | _ => .done none

/-- Call an operation without an answer. -/
def run {α : Type} (op : IOp) (k : Client (Option α)) : Client (Option α) := .call op fun _ => k

/-- `for (; first != last; ++first) if (*first == value) break; return first;` (the result is in variable 0) -/
def find (v : Bool) : Nat → Client (Option Unit)
  | 0 => .done none
  | n+1 => ask (.cmpIt .ne 0 1) fun c =>
    if c then run (.derefIt 0 0) (ask (.read 0) fun b => if b = v then .done (some ()) else run (.incIt 0) (find v n))
    else .done (some ())

/-- `for (; first != last; ++first) if (*first == value) ++n; return n;` -/
def count (v : Bool) : Nat → Int → Client (Option Int)
  | 0, _ => .done none
  | n+1, acc => ask (.cmpIt .ne 0 1) fun c =>
    if c then run (.derefIt 0 0) (ask (.read 0) fun b => run (.incIt 0) (count v n (if b = v then acc + 1 else acc)))
    else .done (some acc)

/-- `for (; first1 != last1; ++first1, ++first2) if (!(*first1 == *first2)) return false; return true;` -/
def equal : Nat → Client (Option Bool)
  | 0 => .done none
  | n+1 => ask (.cmpIt .ne 0 1) fun c =>
    if c then run (.derefIt 0 0) (run (.derefIt 1 2) (ask (.read 0) fun a => ask (.read 1) fun b =>
      if a = b then run (.incIt 0) (run (.incIt 2) (equal n)) else .done (some false)))
    else .done (some true)

/-- `for (; first != last; ++first) *first = value;` -/
def fill (v : Bool) : Nat → Client (Option Unit)
  | 0 => .done none
  | n+1 => ask (.cmpIt .ne 0 1) fun c =>
    if c then run (.derefIt 0 0) (run (.upd (.assign v) 0) (run (.incIt 0) (fill v n))) else .done (some ())

/-- `for (n = last - first; n > 0; --n) { *result = *first; ++first; ++result; } return result;` -/
def copyLoop : Nat → Client (Option Unit)
  | 0 => .done (some ())
  | n+1 => run (.derefIt 1 2) (run (.derefIt 0 0) (run (.assign 1 0) (run (.incIt 0) (run (.incIt 2) (copyLoop n)))))

def copy : Client (Option Unit) := askNum (.diffIt 1 0) fun n => copyLoop n.toNat

/-- `for (n = last - first; n > 0; --n) *--result = *--last; return result;` -/
def copyBackwardLoop : Nat → Client (Option Unit)
  | 0 => .done (some ())
  | n+1 => run (.decIt 2) (run (.decIt 1) (run (.derefIt 1 2) (run (.derefIt 0 1) (run (.assign 1 0) (copyBackwardLoop n)))))

def copyBackward : Client (Option Unit) := askNum (.diffIt 1 0) fun n => copyBackwardLoop n.toNat

/-- `for (; first1 != last1; ++first1, ++first2) iter_swap(first1, first2); return first2;` -/
def swapRanges : Nat → Client (Option Unit)
  | 0 => .done none
  | n+1 => ask (.cmpIt .ne 0 1) fun c =>
    if c then run (.derefIt 0 0) (run (.derefIt 1 2) (run (.swap 0 1) (run (.incIt 0) (run (.incIt 2) (swapRanges n))))) else .done (some ())

/-- `while (first < last) { iter_swap(first, last); ++first; --last; }` -/
def reverseLoop : Nat → Client (Option Unit)
  | 0 => .done none
  | n+1 => ask (.cmpIt .lt 0 1) fun c =>
    if c then run (.derefIt 0 0) (run (.derefIt 1 1) (run (.swap 0 1) (run (.incIt 0) (run (.decIt 1) (reverseLoop n))))) else .done (some ())

/-- `if (first == last) return; --last;` and the loop. -/
def reverse (n : Nat) : Client (Option Unit) :=
  ask (.cmpIt .eq 0 1) fun c => if c then .done (some ()) else run (.decIt 1) (reverseLoop n)

/-- `for (; first != last; ++first, ++result) *result = op(*first); return result;` -/
def transform (f : Bool → Bool) : Nat → Client (Option Unit)
  | 0 => .done none
  | n+1 => ask (.cmpIt .ne 0 1) fun c =>
    if c then run (.derefIt 0 0) (ask (.read 0) fun b => run (.derefIt 1 2) (run (.upd (.assign (f b)) 1)
      (run (.incIt 0) (run (.incIt 2) (transform f n))))) else .done (some ())

/-- `for (; first1 != last1; ++first1, ++first2, ++result) *result = op(*first1, *first2); return result;` (the result is in variable 3) -/
def transform2 (f : Bool → Bool → Bool) : Nat → Client (Option Unit)
  | 0 => .done none
  | n+1 => ask (.cmpIt .ne 0 1) fun c =>
    if c then run (.derefIt 0 0) (ask (.read 0) fun a => run (.derefIt 2 2) (ask (.read 2) fun b => run (.derefIt 1 3) (run (.upd (.assign (f a b)) 1)
      (run (.incIt 0) (run (.incIt 2) (run (.incIt 3) (transform2 f n))))))) else .done (some ())

/-- `for (i = 0; i < n; ++i) { iter_swap(p, q); ++p; ++q; }`; variable 0 is `p`, variable 4 is `q`. -/
def swapUp : Nat → Client (Option Unit) → Client (Option Unit)
  | 0, next => next
  | n+1, next => run (.derefIt 0 0) (run (.derefIt 1 4) (run (.swap 0 1) (run (.incIt 0) (run (.incIt 4) (swapUp n next)))))

/-- `for (i = 0; i < n; ++i) { --p; --q; iter_swap(p, q); }` -/
def swapDown : Nat → Client (Option Unit) → Client (Option Unit)
  | 0, next => next
  | n+1, next => run (.decIt 0) (run (.decIt 4) (run (.derefIt 0 0) (run (.derefIt 1 4) (run (.swap 0 1) (swapDown n next)))))

/-- The loop of `std::rotate` for random access iterators:
`if (k < n - k) { q = p + k; (n - k swaps upwards); n %= k; if (n == 0) return ret; swap(n, k); k = n - k; }`
`else { k = n - k; q = p + n; p = q - k; (n - k swaps downwards); n %= k; if (n == 0) return ret; swap(n, k); }` -/
def rotateLoop : Nat → Nat → Nat → Client (Option Unit)
  | 0, _, _ => .done none
  | rounds+1, n, k =>
    if k < n - k then run (.addIt 4 0 k) (swapUp (n - k) (if n % k = 0 then .done (some ()) else rotateLoop rounds k (k - n % k)))
    else run (.addIt 4 0 n) (run (.subIt 0 4 ((n - k : Nat) : Int))
      (swapDown (n - (n - k)) (if n % (n - k) = 0 then .done (some ()) else rotateLoop rounds (n - k) (n % (n - k)))))

/-- `if (first == middle) return last; if (last == middle) return first; n = last - first; k = middle - first;`
`if (k == n - k) { swap_ranges(first, middle, middle); return middle; } p = first; ret = first + (last - middle);` and the loop.
Variable 2 is `middle`; the result is in variable 3. -/
def rotate (rounds : Nat) : Client (Option Unit) :=
  ask (.cmpIt .eq 0 2) fun c => if c then run (.copyIt 3 1) (.done (some ())) else
  ask (.cmpIt .eq 1 2) fun c => if c then run (.copyIt 3 0) (.done (some ())) else
  askNum (.diffIt 1 0) fun n => askNum (.diffIt 2 0) fun k =>
  if k = n - k then run (.copyIt 3 2) (run (.copyIt 1 2) (swapRanges rounds))
  else askNum (.diffIt 1 2) fun d => run (.addIt 3 0 d) (rotateLoop rounds n.toNat k.toNat)

/-- The variables at the start: up to four iterators. -/
def start {I R P : Type} (first last second third : I) : Slots I R P :=
  ⟨fun k => match k with | 0 => some first | 1 => some last | 2 => some second | 3 => some third | _ => none, fun _ => none, fun _ => none⟩

end Std
end BitLib
