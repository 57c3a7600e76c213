import Verif.SpecExpr
import Verif.Props.Refs
/- The resolution of the overloaded calls, case by case. -/
namespace BitLib.Expr
variable {w : Nat}

/-- How a bit is converted to a parameter `bit_value`. -/
def bitConv : ETy → Conv
  | .val _ _ => .copy
  | _ => .ofRef

/-- How an object is prepared for a member that changes it. -/
def thisConv : ETy → Conv
  | .val _ false => .object
  | _ => .none

/-- What an operator on bits returns. -/
def opTy : BOp → ETy
  | .cmp _ => boolTy
  | _ => bitTy

section tables
variable (A : Arith) (x y z : Core) (r : Ord)

local macro "tab" : tactic => `(tactic| first
  | rfl
  | simp (config := { decide := true }) [mk1, mk2, mk3, resolve, opCands, complCands, ctorCands, initCands, ctorPosCands, asgCands, opAsgCands, setCands, setToCands, assignCands,
    assignPosCands, swapWithCands, swapCands, stdSwapCands, Cand.seqs, convs, Param.conv, better, Fn.body, Fn.ret, bitConv, thisConv, ETy.isBit, opTy, boolTy, bitTy,
    ETy.writable, ETy.digits, ETy.isUnsigned, ETy.isNum, ETy.self, ETy.named, ETy.modifiable, List.find?, ETy.isVal, ETy.isVariable, ETy.isRef, ETy.isAnyRef])

theorem mk2_bin (o : BOp) (s t : ETy) : mk2 A (opCands o) r (x, s) (y, t) =
    match s, t with
    | .arith a, .arith b => some (.call2 (.builtin o) r .none .none x y, .arith (A.binTy o a b))
    | s, t => if s.isBit && t.isBit then some (.call2 (.friendOp o) r (bitConv s) (bitConv t) x y, opTy o) else none := by
  cases s <;> cases t <;> tab <;> cases o <;> rfl

theorem mk1_compl (s : ETy) : mk1 A complCands (x, s) =
    match s with
    | .arith a => some (.call1 .builtinCompl .none x, .arith (A.complTy a))
    | s => if s.isBit then some (.call1 .friendCompl (bitConv s) x, bitTy) else none := by
  cases s <;> tab

theorem mk1_init (s : ETy) : mk1 A initCands (x, s) =
    match s with
    | .val false false => some (.call1 .ctorMove .none x, bitTy)
    | .val _ _ => some (.call1 .ctorCopy .none x, bitTy)
    | .ref _ _ _ => some (.call1 .ctorRef .none x, bitTy)
    | _ => none := by
  cases s with
  | val c l => cases c <;> cases l <;> tab
  | _ => tab

theorem mk1_ctor (s : ETy) : mk1 A ctorCands (x, s) =
    match s with
    | .val false false => some (.call1 .ctorMove .none x, bitTy)
    | .val _ _ => some (.call1 .ctorCopy .none x, bitTy)
    | .ref _ _ _ => some (.call1 .ctorRef .none x, bitTy)
    | .arith .bool => some (.call1 .ctorBool .none x, bitTy)
    | .arith (.num false (k + 1)) => some (.call1 .ctorWord .none x, bitTy)
    | _ => none := by
  cases s with
  | val c l => cases c <;> cases l <;> tab
  | arith a => cases a with
    | num s k => cases s <;> cases k <;> tab
    | _ => tab
  | _ => tab

theorem mk2_ctorPos (s t : ETy) : mk2 A ctorPosCands r (x, s) (y, t) =
    if s.isUnsigned && t.isNum then some (.call2 .ctorPos r .none .none x y, bitTy) else none := by
  cases s with
  | arith a => cases a with
    | num s k => cases s <;> cases k <;> cases t <;> tab
    | _ => cases t <;> tab
  | _ => cases t <;> tab

theorem mk2_asg (s t : ETy) : mk2 A (asgCands s) r (x, s) (y, t) =
    if s.modifiable && t.isBit then
      some (match s, t with
        | .ref _ u _, .ref _ v _ => (.call2 (if u = v then .refAssignSame else .refAssignAny) r .none .none x y, s.named)
        | .ref _ _ _, _ => (.call2 .refAssignVal r .none .copy x y, s.named)
        | _, .ref _ _ _ => (.call2 .valAssignRef r (thisConv s) .none x y, s.named)
        | _, .val c l => (.call2 (if !c && !l then .valAssignMove else .valAssignCopy) r (thisConv s) .none x y, s.named)
        | _, _ => (x, s)) else none := by
  cases s with
  | ref c u l => cases t with
    | ref d v m => cases c <;> cases u <;> cases v <;> tab
    | val d m => cases c <;> cases u <;> tab
    | _ => cases c <;> cases u <;> tab
  | val c l => cases t with
    | ref d v m => cases c <;> cases l <;> tab
    | val d m => cases c <;> cases l <;> cases d <;> cases m <;> tab
    | _ => cases c <;> cases l <;> tab
  | _ => cases t <;> tab

theorem mk2_opAsg (o : AOp) (s t : ETy) : mk2 A (opAsgCands o s) r (x, s) (y, t) =
    if s.modifiable && t.isBit then
      some (match s with
        | .ref _ _ _ => (.call2 (.refOpAssign o) r .none (bitConv t) x y, s.named)
        | _ => (.call2 (.valOpAssign o) r (thisConv s) (bitConv t) x y, s.named)) else none := by
  cases s with
  | ref c u l => cases c <;> cases u <;> cases t <;> tab
  | val c l => cases c <;> cases l <;> cases t <;> tab
  | _ => cases t <;> tab

theorem mk1_set (f : SetOp) (s : ETy) : mk1 A (setCands f s) (x, s) =
    if s.modifiable then
      some (match s with
        | .ref _ _ _ => (.call1 (.refSet f) .none x, s.named)
        | _ => (.call1 (.valSet f) (thisConv s) x, s.named)) else none := by
  cases s with
  | ref c u l => cases c <;> cases u <;> tab
  | val c l => cases c <;> cases l <;> tab
  | _ => tab

theorem mk2_setTo (s t : ETy) : mk2 A (setToCands s) r (x, s) (y, t) =
    if s.modifiable && t.isNum then
      some (match s with
        | .ref _ _ _ => (.call2 .refSetTo r .none .none x y, s.named)
        | _ => (.call2 .valSetTo r (thisConv s) .none x y, s.named)) else none := by
  cases s with
  | ref c u l => cases c <;> cases u <;> cases t <;> tab
  | val c l => cases c <;> cases l <;> cases t <;> tab
  | _ => cases t <;> tab

theorem mk2_assign (s t : ETy) : mk2 A (assignCands s) r (x, s) (y, t) =
    if s.modifiable && (if s.isVal then t.isUnsigned else t.isNum) then
      some (match s with
        | .ref _ _ _ => (.call2 .refAssignWord r .none .none x y, s.named)
        | _ => (.call2 .valAssignWord r (thisConv s) .none x y, s.named)) else none := by
  cases s with
  | ref c u l => cases c <;> cases u <;> cases t <;> tab
  | val c l =>
    cases t with
    | arith a => cases a with
      | num s k => cases c <;> cases l <;> cases s <;> cases k <;> tab
      | _ => cases c <;> cases l <;> tab
    | _ => cases c <;> cases l <;> tab
  | _ => cases t <;> tab

theorem mk3_assignPos (lr : Bool) (s t u : ETy) : mk3 A (assignPosCands s) lr (x, s) (y, t) (z, u) =
    if s.modifiable && (if s.isVal then t.isUnsigned else t.isNum) && u.isNum then
      some (match s with
        | .ref _ _ _ => (.call3 .refAssignPos lr .none .none .none x y z, s.named)
        | _ => (.call3 .valAssignPos lr (thisConv s) .none .none x y z, s.named)) else none := by
  cases s with
  | ref c v l => cases c <;> cases v <;> cases t <;> cases u <;> tab
  | val c l =>
    cases t with
    | arith a => cases a with
      | num s k => cases c <;> cases l <;> cases s <;> cases k <;> cases u <;> tab
      | _ => cases c <;> cases l <;> cases u <;> tab
    | _ => cases c <;> cases l <;> cases u <;> tab
  | _ => cases t <;> cases u <;> tab

theorem mk2_swapWith (s t : ETy) : mk2 A (swapWithCands s) r (x, s) (y, t) =
    if s.modifiable && (t.isVariable || (s.isAnyRef && t.isRef)) then
      some (match s, t with
        | .ref _ _ _, .ref _ _ _ => (.call2 .refSwapRef r .none .none x y, .void)
        | .ref _ _ _, _ => (.call2 .refSwapVal r .none .none x y, .void)
        | _, _ => (.call2 .valSwapVal r (thisConv s) .none x y, .void)) else none := by
  cases s with
  | ref c u l => cases t with
    | ref d v m => cases c <;> cases u <;> cases v <;> tab
    | val d m => cases c <;> cases u <;> cases d <;> cases m <;> tab
    | _ => cases c <;> cases u <;> tab
  | val c l => cases t with
    | ref d v m => cases c <;> cases l <;> tab
    | val d m => cases c <;> cases l <;> cases d <;> cases m <;> tab
    | _ => cases c <;> cases l <;> tab
  | _ => cases t <;> tab

theorem mk2_swap (s t : ETy) : mk2 A swapCands r (x, s) (y, t) =
    if (s.isRef && (t.isRef || t.isVariable)) || (s.isVariable && t.isRef) then
      some (match s, t with
        | .ref _ _ _, .ref _ _ _ => (.call2 .swapRefRef r .none .none x y, .void)
        | .ref _ _ _, _ => (.call2 .swapRefVal r .none .none x y, .void)
        | _, _ => (.call2 .swapValRef r .none .none x y, .void)) else none := by
  cases s with
  | ref c u l => cases t with
    | ref d v m => cases u <;> cases v <;> tab
    | val d m => cases u <;> cases d <;> cases m <;> tab
    | _ => cases u <;> tab
  | val c l => cases t with
    | ref d v m => cases c <;> cases l <;> cases v <;> tab
    | val d m => cases c <;> cases l <;> cases d <;> cases m <;> tab
    | _ => cases c <;> cases l <;> tab
  | _ => cases t <;> tab

theorem mk2_stdSwap (s t : ETy) : mk2 A stdSwapCands r (x, s) (y, t) =
    if s.modifiable && s == s.named && t == s then some (.call2 .stdSwap r .none .none x y, .void) else none := by
  cases s with
  | ref c u l => cases t with
    | ref d v m => cases c <;> cases u <;> cases l <;> cases d <;> cases v <;> cases m <;> tab
    | _ => cases c <;> cases u <;> cases l <;> tab
  | val c l => cases t with
    | val d m => cases c <;> cases l <;> cases d <;> cases m <;> tab
    | _ => cases c <;> cases l <;> tab
  | _ => cases t <;> tab

end tables
end BitLib.Expr
