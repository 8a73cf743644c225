/-
Model of the classes `UnitImplication` and `NegativeImplication` of fca/implication.py, of equality
across the classes and of copying.
-/
import Verif.Model.ImpText

variable {α : Type} [DecidableEq α]

/-- The class of an implication object. -/
inductive ImpKind
  | plain     -- fca/implication.py:6 `Implication`
  | unit      -- fca/implication.py:105 `UnitImplication`
  | negative  -- fca/implication.py:123 `NegativeImplication`
  deriving DecidableEq, Repr

/-- An implication object: its class and the two attributes `_premise`, `_conclusion`. -/
structure KImp (α : Type) where
  kind : ImpKind
  imp : Imp α

namespace KImp

/-- fca/implication.py:106-113 `UnitImplication.__init__`. -/
def mkUnit (premise : Finset α) (c : α) : KImp α := ⟨.unit, ⟨premise, {c}⟩⟩

/-- The property `conclusion`: fca/implication.py:50-54, and for unit implications 115-120, where
the assertion asks for exactly one element. -/
def conclusion (i : KImp α) : Py (Finset α) :=
  match i.kind with
  | .unit => if i.imp.reduced.card = 1 then .ok i.imp.reduced else .error .assertionError
  | _ => .ok i.imp.reduced

/-- `is_respected` of a `set`: fca/implication.py:88-89, for negative implications 143-145. `or`
does not evaluate its second operand when the first is true. -/
def isRespected (i : KImp α) (s : Finset α) : Py Bool :=
  if !(decide (i.imp.premise ⊆ s)) then .ok true
  else do
    let c ← i.conclusion
    match i.kind with
    | .negative => return !(decide ((c ∩ s).Nonempty))
    | _ => return decide (c ⊆ s)

/-- `is_respected` of a partial example: fca/implication.py:90-93, for negative implications
146-149. Here the conclusion is evaluated first. -/
def isRespectedPartial (i : KImp α) (s : Finset α × Finset α) : Py Bool := do
  let c ← i.conclusion
  match i.kind with
  | .negative => return !(decide ((c ∩ s.2).Nonempty)) || !(decide (i.imp.premise ⊆ s.1))
  | _ => return decide (c ⊆ s.2) || !(decide (i.imp.premise ⊆ s.1))

/-- fca/implication.py:74-79 `__eq__`, inherited by both subclasses: `and` evaluates the
conclusions only if the premises are equal. -/
def pyEq (i j : KImp α) : Py Bool :=
  if i.imp.premise = j.imp.premise then do
    let c ← i.conclusion
    let d ← j.conclusion
    return decide (c = d)
  else .ok false

/-- fca/implication.py:35-36 `__deepcopy__`, inherited by both subclasses: always builds an
`Implication`. -/
def deepcopy (i : KImp α) : KImp α := ⟨.plain, i.imp⟩

/-- fca/implication.py:124-136 `NegativeImplication.__repr__` for string names: the sets are
iterated without sorting, `o₁`, `o₂` are the iteration orders of the two sets. -/
def negText (o₁ o₂ : SetOrder (List Char)) (i : Imp (List Char)) : List Char :=
  Ctx.joinC [' ', '=', '>', ' '] [Ctx.joinC [',', ' '] (o₁.enum i.premise),
    ['n', 'o', 't', ' ', '('] ++ Ctx.joinC [',', ' '] (o₂.enum i.reduced) ++ [')']]

end KImp
