/-
Model of `==` between contexts of both classes and anything else: fca/context.py:672-692, inherited by
`ManyValuedContext` (fca/mvcontext.py:8), with the order in which Python tries the two operands.
-/
import Verif.Model.MvContext

/-- What can stand on a side of `==`: a `Context`, a `ManyValuedContext` (its state is that of a `Context`), or an object
whose own `__eq__` leaves comparisons with contexts to the other side (numbers, strings, lists, `None`). -/
inductive PyObj (α β : Type) where
  | context (c : Ctx α β)
  | mv (c : Ctx α β)
  | other

namespace PyObj

variable {α β : Type} [DecidableEq α] [DecidableEq β]

/-- fca/context.py:672-674: `__eq__` of a context of either class; `type(other) != Context` holds for instances of
subclasses. -/
def eqMethod (strO : α → List Char) (strA : β → List Char) (self : Ctx α β) : PyObj α β → Py Bool
  | context d => self.eq strO strA d
  | mv _ => .error .typeError
  | other => .error .typeError

/-- `x == y`: the method of the right operand comes first if its class is a proper subclass of that of the left one; an
object without an `__eq__` for contexts leaves the comparison to the other operand. `rest` is the result if no context
is involved. -/
def eq (strO : α → List Char) (strA : β → List Char) (rest : Py Bool) (x y : PyObj α β) : Py Bool :=
  match x, y with
  | context c, mv d => eqMethod strO strA d (context c)
  | context c, y => eqMethod strO strA c y
  | mv c, y => eqMethod strO strA c y
  | other, context d => eqMethod strO strA d other
  | other, mv d => eqMethod strO strA d other
  | other, other => rest

/-- `x in l` for a list: element by element, identity before `==`. Objects are given with their identity. -/
def mem (strO : α → List Char) (strA : β → List Char) (rest : Py Bool) (x : ℕ × PyObj α β) :
    List (ℕ × PyObj α β) → Py Bool
  | [] => .ok false
  | y :: l => if y.1 = x.1 then .ok true else
    match eq strO strA rest y.2 x.2 with
    | .error e => .error e
    | .ok true => .ok true
    | .ok false => mem strO strA rest x l

end PyObj
