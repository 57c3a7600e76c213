/-
bit-iterator/linear_overload.hpp: the choice of the function that a `linear_overload` calls. No other header includes this one.
-/
namespace BitLib.Overload

/-- Value categories of the object expression in a call `f(args...)`. -/
inductive Cat where
  | lvalue
  | rvalue
  deriving DecidableEq

/-- An element of the tuple `_f` (linear_overload.hpp:35, 93), for one list of argument types. `overload_linearly` (lines 236-240) deduces
`G = T&` for an lvalue argument, so that the tuple holds a reference, and `G = T` for an rvalue.

Simplification: the function is given by the result of the call for either value category, `none` if the call expression is ill-formed;
argument values and effects are part of `β`. -/
structure Func (β : Type) where
  byRef : Bool
  result : Cat → Option β

/-- The outcome of a call expression. -/
inductive Outcome (β : Type) where
  /-- the function at this position was called -/
  | called (i : Nat) (r : β)
  /-- lines 187-193: no function was called, `void` -/
  | nothing
  /-- a template was selected whose body does not compile -/
  | illFormed
  deriving DecidableEq

/-- The value category of `std::get<N>(std::declval<tuple>())` (lines 70, 78): `get` of a tuple rvalue is an rvalue, but an lvalue for an
element of reference type. -/
def Func.probeCat {β : Type} (f : Func β) : Cat := if f.byRef then .lvalue else .rvalue

/-- The value category of `std::get<N>(_f)` (lines 201, 212). -/
def Func.callCat {β : Type} (_ : Func β) : Cat := .lvalue

/-- linear_overload.hpp:185-226, `operator()<N>(args...)`: for `N >= size()` the first template; for `N < size()` the second (no arguments)
or third (arguments) if the probed call is well-formed, being more specialised than the fourth, else the fourth, which goes on with `N + 1`. -/
def call {β : Type} (fs : List (Func β)) (N : Nat) : Outcome β :=
  if h : N < fs.length then
    let f := fs[N]
    match f.result f.probeCat with
    | some _ =>
      match f.result f.callCat with
      | some r => .called N r
      | none => .illFormed
    | none => call fs (N + 1)
  else .nothing
termination_by fs.length - N

/-- lines 155-180: `size`, `max_size`, `empty`. -/
def size {β : Type} (fs : List (Func β)) : Nat := fs.length
def maxSize {β : Type} (fs : List (Func β)) : Nat := fs.length
def empty {β : Type} (fs : List (Func β)) : Bool := fs.length == 0

end BitLib.Overload
