/-
Model of the methods of fca/algorithms/exploration.py (class BasicExploration) that take the position of an open
implication, for any integer position.
-/
import Verif.Model.BasicExploration

/-- `l[i]` of a Python list for any integer: negative positions count from the end. -/
def listGetZ {γ : Type} (l : List γ) (i : ℤ) : Py γ :=
  let j := if i < 0 then i + l.length else i
  if j < 0 then .error .indexError
  else match l[j.toNat]? with
    | none => .error .indexError
    | some x => .ok x

/-- `del l[i]` of a Python list for any integer. -/
def listDelZ {γ : Type} (l : List γ) (i : ℤ) : Py (List γ) :=
  let j := if i < 0 then i + l.length else i
  if j < 0 then .error .indexError
  else if j < l.length then .ok (l.eraseIdx j.toNat)
  else .error .indexError

namespace BExp

variable {α β : Type} [DecidableEq α] [DecidableEq β]

/-- fca/algorithms/exploration.py:108-111 `confirm_attribute_implication`. -/
def confirmAttrZ (s : BExp α β) (i : ℤ) : BExp α β × Option PyErr :=
  match listGetZ s.attrImps i with
  | .error e => (s, some e)
  | .ok imp =>
    let s1 := { s with confAttr := s.confAttr ++ [imp] }
    match listDelZ s1.attrImps i with
    | .error e => (s1, some e)
    | .ok l => ({ s1 with attrImps := l }, none)

/-- fca/algorithms/exploration.py:113-116 `confirm_object_implication`. -/
def confirmObjZ (s : BExp α β) (i : ℤ) : BExp α β × Option PyErr :=
  match listGetZ s.objImps i with
  | .error e => (s, some e)
  | .ok imp =>
    let s1 := { s with confObj := s.confObj ++ [imp] }
    match listDelZ s1.objImps i with
    | .error e => (s1, some e)
    | .ok l => ({ s1 with objImps := l }, none)

variable [PyName α] [PyName β]

/-- fca/algorithms/exploration.py:118-139 `counter_example_for_attr_implication`. -/
def counterAttrZ (E : Env α β) (s : BExp α β) (name : α) (intent : Finset β) (i : ℤ) : BExp α β × Option PyErr :=
  match listGetZ s.attrImps i with
  | .error e => (s, some e)
  | .ok imp =>
    if imp.premise ∩ intent ≠ imp.premise then (s, some .notCounterExamplePremise)
    else if imp.reduced ∩ intent = imp.reduced then (s, some .notCounterExampleConclusion)
    else if !(check s.confAttr intent) then (s, some .basisConflict)
    else thenRecompute E s (s.ctx.addObjectWithIntent intent name)

/-- fca/algorithms/exploration.py:141-162 `counter_example_for_obj_implication`. -/
def counterObjZ (E : Env α β) (s : BExp α β) (name : β) (extent : Finset α) (i : ℤ) : BExp α β × Option PyErr :=
  match listGetZ s.objImps i with
  | .error e => (s, some e)
  | .ok imp =>
    if imp.premise ∩ extent ≠ imp.premise then (s, some .notCounterExamplePremise)
    else if imp.reduced ∩ extent = imp.reduced then (s, some .notCounterExampleConclusion)
    else if !(check s.confObj extent) then (s, some .basisConflict)
    else thenRecompute E s (s.ctx.addAttributeWithExtent extent name)

/-- The calls an exploration history consists of, with any integer positions. -/
inductive OpZ (α β : Type) where
  | confirmAttr (i : ℤ)
  | confirmObj (i : ℤ)
  | counterAttr (name : α) (intent : Finset β) (i : ℤ)
  | counterObj (name : β) (extent : Finset α) (i : ℤ)
  | addObject (intent : Finset β) (name : α)
  | addAttribute (extent : Finset α) (name : β)
  | editObject (intent : Finset β) (name : α)
  | editAttribute (extent : Finset α) (name : β)

/-- One call. -/
def execZ (E : Env α β) (s : BExp α β) : OpZ α β → BExp α β × Option PyErr
  | .confirmAttr i => s.confirmAttrZ i
  | .confirmObj i => s.confirmObjZ i
  | .counterAttr n B i => s.counterAttrZ E n B i
  | .counterObj n A i => s.counterObjZ E n A i
  | .addObject B n => s.addObject E B n
  | .addAttribute A n => s.addAttribute E A n
  | .editObject B n => s.editObject E B n
  | .editAttribute A n => s.editAttribute E A n

/-- A history: calls that raise are caught and the next call follows. -/
def runZ (E : Env α β) (s : BExp α β) (ops : List (OpZ α β)) : BExp α β :=
  ops.foldl (fun s op => (s.execZ E op).1) s

end BExp
