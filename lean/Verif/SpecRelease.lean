import Verif.Model.Release
import Verif.Spec
/-
What a call of an algorithm needs and does (C105), in one place for all algorithms, and which calls the assertions refuse. Nothing here
refers to the code.
-/
namespace BitLib
namespace AlgCall
variable {w : Nat}

/-- The range is reversed, or a word of more bits than a word has is asked for. -/
def Refused : AlgCall w → Prop
  | distance f l | copy f l _ | move f l _ | copyBackward f l _ | fill f l _ | transform _ f l _ | transform2 _ f l _ _ | reverse f l
  | shiftLeft f l _ | shiftRight f l _ | swapRanges f l _ | count f l _ | equal f l _ => l.addr < f.addr
  | rotate f n l => n.addr < f.addr ∨ l.addr < n.addr
  | getWord _ n => w < n
  | find _ _ _ | writeWord _ _ _ => False

/-- The iterators are proper iterators, and `find` is not given a reversed range. The words need not exist, the ranges may overlap in any way,
and `get_word` and `write_word` may be asked for any number of bits. -/
def Proper : AlgCall w → Prop
  | distance f l | fill f l _ | reverse f l | shiftLeft f l _ | shiftRight f l _ | count f l _ => f.Valid ∧ l.Valid
  | find f l _ => f.Valid ∧ l.Valid ∧ f.addr ≤ l.addr
  | copy f l d | move f l d | copyBackward f l d | transform _ f l d | equal f l d | rotate f d l | swapRanges f l d => f.Valid ∧ l.Valid ∧ d.Valid
  | transform2 _ f l f2 d => f.Valid ∧ l.Valid ∧ f2.Valid ∧ d.Valid
  | getWord f _ | writeWord _ f _ => f.Valid

/-- What a call of an algorithm needs. -/
def Fits (S : ShiftSem w) (m : Mem w) : AlgCall w → Prop
  | distance f l => f.Valid ∧ l.Valid ∧ f.addr ≤ l.addr
  | copy f l d | move f l d => Range m f l ∧ Dest m d (len f l) ∧ (d.addr ≤ f.addr ∨ l.addr ≤ d.addr)
  | copyBackward f l d => Range m f l ∧ d.Valid ∧ Mapped m (d.addr - len f l) d.addr ∧ (l.addr ≤ d.addr ∨ d.addr ≤ f.addr) ∧
      (¬ (f.pos = 0 ∧ l.pos = d.pos ∧ f.base + 2 ≤ l.base) ∨ S.FullShiftOk)
  | fill f l _ => Range m f l
  | transform op f l d => Range m f l ∧ Dest m d (len f l) ∧ (d.addr ≤ f.addr ∨ l.addr ≤ d.addr) ∧
      ∃ g : Bool → Bool, ∀ x i, i < w → (op x).getLsbD i = g (x.getLsbD i)
  | transform2 op f l f2 d => Range m f l ∧ Dest m f2 (len f l) ∧ Dest m d (len f l) ∧ (d.addr ≤ f.addr ∨ l.addr ≤ d.addr) ∧
      (d.addr ≤ f2.addr ∨ f2.addr + len f l ≤ d.addr) ∧
      ∃ g : Bool → Bool → Bool, ∀ x y i, i < w → (op x y).getLsbD i = g (x.getLsbD i) (y.getLsbD i)
  | reverse f l => Range m f l ∧ f.addr < l.addr ∧ (¬ (f.pos ≠ 0 ∧ l.addr = (f.base + 1) * w) ∨ S.FullShiftOk)
  | rotate f n l => Range m f l ∧ n.Valid ∧ f.addr ≤ n.addr ∧ n.addr < l.addr ∧ RotFits w (len f n) (len n l)
  | shiftLeft f l n | shiftRight f l n => Range m f l ∧ 0 < n ∧ n < len f l ∧ (¬ (f.pos = 0 ∧ len f l = w) ∨ S.FullShiftOk)
  | swapRanges f l f2 => Range m f l ∧ Dest m f2 (len f l) ∧ (l.addr ≤ f2.addr ∨ f2.addr + len f l ≤ f.addr)
  | find f l _ | count f l _ => Range m f l ∧ f.addr < l.addr
  | equal f l d => Range m f l ∧ Dest m d (len f l)
  | getWord _ _ | writeWord _ _ _ => False

/-- What a call of an algorithm does: what it returns, and the memory after it. -/
def Effect (m : Mem w) (c : AlgCall w) (r : Out w) (m' : Mem w) : Prop :=
  match c with
  | distance f l => r = .num (len f l) ∧ m' = m
  | copy f l d | move f l d => ∃ i, r = .it i ∧ i.Valid ∧ i.addr = d.addr + len f l ∧ Copied m m' f.addr d.addr (len f l)
  | copyBackward f l d => ∃ i, r = .it i ∧ i.Valid ∧ i.addr = d.addr - len f l ∧ Copied m m' f.addr (d.addr - len f l) (len f l)
  | fill f l v => r = .unit ∧ ∀ i, bitAt m' i = if f.addr ≤ i ∧ i < l.addr then some v else bitAt m i
  | transform op f l d => ∃ i, r = .it i ∧ i.Valid ∧ i.addr = d.addr + len f l ∧
      ∀ g : Bool → Bool, (∀ x i, i < w → (op x).getLsbD i = g (x.getLsbD i)) → Mapd g m m' f.addr d.addr (len f l)
  | transform2 op f l f2 d => ∃ i, r = .it i ∧ i.Valid ∧ i.addr = d.addr + len f l ∧
      ∀ g : Bool → Bool → Bool, (∀ x y i, i < w → (op x y).getLsbD i = g (x.getLsbD i) (y.getLsbD i)) →
        Mapd2 g m m' f.addr f2.addr d.addr (len f l)
  | reverse f l => r = .unit ∧ Reversed m m' f.addr l.addr
  | rotate f n l => ∃ i, r = .it i ∧ i.Valid ∧ i.addr = f.addr + (l.addr - n.addr) ∧ Rotated m m' f.addr n.addr l.addr
  | shiftLeft f l n => ∃ i, r = .it i ∧ i.Valid ∧ i.addr = l.addr - n ∧ ShiftedL m m' f.addr l.addr n
  | shiftRight f l n => ∃ i, r = .it i ∧ i.Valid ∧ i.addr = f.addr + n ∧ ShiftedR m m' f.addr l.addr n
  | swapRanges f l f2 => ∃ i, r = .it i ∧ i.Valid ∧ i.addr = f2.addr + len f l ∧ Swapped m m' f.addr f2.addr (len f l)
  | find f l v => ∃ i, r = .it i ∧ i.Valid ∧ FirstAt m v f.addr l.addr i.addr ∧ m' = m
  | count f l v => r = .num (countIn m v f.addr (len f l).toNat) ∧ m' = m
  | equal f l d => ∃ b, r = .bool b ∧ (b = true ↔ EqBits m f.addr d.addr (len f l)) ∧ m' = m
  | getWord _ _ | writeWord _ _ _ => False

end AlgCall

namespace AlgProg
variable {w : Nat} {α : Type}

/-- Every call of the program has what it needs, whatever the calls before it did within their descriptions. -/
def Fits (S : ShiftSem w) : AlgProg w α → Mem w → Prop
  | done _, _ => True
  | call c next, m => c.Fits S m ∧ ∀ r m', c.Effect m r m' → (next r).Fits S m'

/-- What the program does, according to the descriptions of the calls. -/
def Effect : AlgProg w α → Mem w → α → Mem w → Prop
  | done a, m, b, m' => b = a ∧ m' = m
  | call c next, m, b, m' => ∃ r m1, c.Effect m r m1 ∧ (next r).Effect m1 b m'

end AlgProg
end BitLib
