/-
Model of fca/mvcontext.py, class ManyValuedContext. The constructor is `mvMake` (Model/Scaling); the state is that of a
`Context`. The property `table` is `cross_table`, the array as a list of lists (fca/mvcontext.py:79-82), where
`Context` has the array itself; inherited methods that use `self.table` therefore see a list.
-/
import Verif.Model.Scaling
import Verif.Lemmas.ContextOps

namespace Mv

variable {α β V : Type} [DecidableEq α] [DecidableEq β] [PyName α] [PyName β]

open Ctx Spec

/-- fca/context.py:368-378 `add_object` of a `ManyValuedContext`: a list has no attribute `shape` (line 373). -/
def addObject (c : Ctx α β) (_row : List Bool) (_name : α) : Mut α β := (c, some .attributeError)

/-- fca/context.py:380-382 `add_object_with_intent` of a `ManyValuedContext`. -/
def addObjectWithIntent (c : Ctx α β) (intent : Finset β) (name : α) : Mut α β :=
  addObject c (c.attributes.map fun a => decide (a ∈ intent)) name

/-- fca/context.py:396-401 `set_object_intent` of a `ManyValuedContext`: a row of the list is replaced. -/
def setObjectIntent (c : Ctx α β) (intent : List β) (name : α) : Mut α β :=
  c.reinit do
    let js ← intent.mapM (lastIdx c.attributes)
    let row := flags c.attributes.length js
    let i ← lastIdx c.objects name
    let _ ← pyGet c.nd.rows i
    Ctx.make (c.nd.rows.set i row) c.objects c.attributes

/-- fca/context.py:425-427 `rename_object` of a `ManyValuedContext`. -/
def renameObject (c : Ctx α β) (old name : α) : Mut α β :=
  c.reinit do
    let i ← lastIdx c.objects old
    Ctx.make c.nd.rows (c.objects.set i name) c.attributes

/-- fca/context.py:429-431 `rename_attribute` of a `ManyValuedContext`. -/
def renameAttribute (c : Ctx α β) (old name : β) : Mut α β :=
  c.reinit do
    let j ← lastIdx c.attributes old
    Ctx.make c.nd.rows c.objects (c.attributes.set j name)

/-- Run one mutator; those not listed above use `np_table` only (fca/context.py:361-366, 384-394, 403-415). -/
def exec (c : Ctx α β) : TOp α β → Mut α β
  | .addObject row n => addObject c row n
  | .addObjectWithIntent B n => addObjectWithIntent c B n
  | .setObjectIntent B n => setObjectIntent c B n
  | .renameObject old new => renameObject c old new
  | .renameAttribute old new => renameAttribute c old new
  | op => c.exec op

/-- Run mutators one after the other; the first exception ends the run. -/
def execAll (c : Ctx α β) : List (TOp α β) → Mut α β
  | [] => (c, none)
  | op :: ops =>
    match exec c op with
    | (c', none) => execAll c' ops
    | (c', some e) => (c', some e)

/-- fca/context.py:263-266 `__deepcopy__`, inherited: a `Context`, not a `ManyValuedContext`. -/
def deepcopy (c : Ctx α β) : Py (Ctx α β) := Ctx.make c.nd.rows c.objects c.attributes

/-- fca/mvcontext.py:84-88 `extract_subcontext`. -/
def extractSubcontext (c : Ctx α β) (names : List β) : Py (Ctx α β) := do
  let table ← c.extractSubtable names
  mvMake id table c.objects names

/-- fca/mvcontext.py:90-100 `extract_subcontext_by_condition` with fca/context.py:584-595
`_extract_subtable_by_condition`. -/
def extractByCondition (c : Ctx α β) (cond : ℕ → Py Bool) : Py (Ctx α β) := do
  let is ← filterPy cond (List.range c.nd.rows.length)
  let objs ← is.mapM (pyGet c.objects)
  let table ← is.mapM (pyGet c.nd.rows)
  mvMake id table objs c.attributes

/-- fca/context.py:614-627 `_has_values`; `eqv v b` is `b == v`. -/
def hasValues (eqv : V → Bool → Bool) (c : Ctx α β) (i : ℕ) : List (β × V) → Py Bool
  | [] => .ok true
  | (a, v) :: vs => do
    let j ← firstIdx c.attributes a
    let b ← c.nd.cell i j
    if !(eqv v b) then .ok false else hasValues eqv c i vs

/-- fca/mvcontext.py:102-111 `extract_subcontext_by_attribute_values` with fca/context.py:597-612
`_extract_subtable_by_attribute_values` in the mode `"and"`; `values` are the items of the dict. -/
def extractByValues (eqv : V → Bool → Bool) (c : Ctx α β) (values : List (β × V)) : Py (Ctx α β) := do
  c.checkNames (values.map Prod.fst)
  let is ← filterPy (fun i => hasValues eqv c i values) (List.range c.nd.rows.length)
  let objs ← is.mapM (pyGet c.objects)
  let table ← is.mapM (pyGet c.nd.rows)
  mvMake id table objs c.attributes

end Mv
