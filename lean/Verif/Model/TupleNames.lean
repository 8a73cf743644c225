/-
Names of objects and attributes given to the constructor as a tuple, a string or a range instead of a list
(fca/context.py:201-249). `objects[:]` and `attributes[:]` keep the kind of the sequence, so that the object has a sequence
that cannot be changed. The mutators as in `CObj`, with the TypeErrors of `seq[i] = x`, `del seq[i]` and `seq + [x]`.
Strings given in place of sets of names, and `get_value` with names kept in a string (fca/context.py:356-359, 380-401).
-/
import Verif.Model.ContextObject

/-- The kind of a sequence of names. The letters of a `str` and the numbers of a `range` are its names. -/
inductive NameSeq | list | tuple | str | range
  deriving DecidableEq

/-- Item assignment, `del` and `+ [x]` raise TypeError. -/
def NameSeq.Frozen (k : NameSeq) : Prop := k ≠ .list

instance (k : NameSeq) : Decidable k.Frozen := inferInstanceAs (Decidable (k ≠ .list))

namespace CObj

variable {α β : Type} [DecidableEq α] [DecidableEq β] [PyName α] [PyName β]

/-- fca/context.py:201-249 `__init__` with names in sequences of the kinds `ko` and `ka`: renaming equal names (lines
228, 238) assigns to an item of the sequence; nothing has been stored before. -/
def initT (ko ka : NameSeq) (t : TableArg) (objs : List α) (atts : List β) : OM (CObj α β) Unit := do
  if t.rows.length ≠ objs.length then OM.raise .valueError
  else if t.rows ≠ [] ∧ (t.rows.headD []).length ≠ atts.length then OM.raise .valueError
  else if ka.Frozen ∧ atts.toFinset.card < atts.length then OM.raise .typeError
  else if ko.Frozen ∧ objs.toFinset.card < objs.length then OM.raise .typeError
  else init t objs atts

/-- fca/context.py:361-366 `add_attribute`; line 365 adds a list to the sequence. -/
def addAttributeT (ko ka : NameSeq) (col : List Bool) (name : β) : OM (CObj α β) Unit := do
  let s ← OM.get
  let t ← OM.lift (s.np.appendCol col)
  if ka.Frozen then OM.raise .typeError
  else initT ko ka (.array t) s.objects (s.attributes ++ [name])

/-- fca/context.py:368-378 `add_object`; line 377 adds a list to the sequence. -/
def addObjectT (ko ka : NameSeq) (row : List Bool) (name : α) : OM (CObj α β) Unit := do
  let s ← OM.get
  let t ← OM.lift (s.np.stackRow row)
  if ko.Frozen then OM.raise .typeError
  else initT ko ka (.array t) (s.objects ++ [name]) s.attributes

/-- fca/context.py:380-382 `add_object_with_intent`. -/
def addObjectWithIntentT (ko ka : NameSeq) (intent : Finset β) (name : α) : OM (CObj α β) Unit := do
  let s ← OM.get
  addObjectT ko ka (s.attributes.map fun a => decide (a ∈ intent)) name

/-- fca/context.py:384-386 `add_attribute_with_extent`. -/
def addAttributeWithExtentT (ko ka : NameSeq) (extent : Finset α) (name : β) : OM (CObj α β) Unit := do
  let s ← OM.get
  addAttributeT ko ka (s.objects.map fun o => decide (o ∈ extent)) name

/-- fca/context.py:388-394 `set_attribute_extent`. (`Nd.setCol` does not broadcast a column of length one; with no row
left nothing is written in that case, and the constructor raises ValueError as here.) -/
def setAttributeExtentT (ko ka : NameSeq) (extent : List α) (name : β) : OM (CObj α β) Unit := do
  let s ← OM.get
  let is ← OM.lift (extent.mapM (dictIdx s.oidx))
  let col ← OM.lift (flagsPy s.objects.length is)
  let j ← OM.lift (dictIdx s.aidx name)
  let t ← OM.lift (s.np.setCol j col)
  OM.modify fun s => { s with np := t }
  initT ko ka (.lists t.rows) s.objects s.attributes

/-- fca/context.py:396-401 `set_object_intent`. -/
def setObjectIntentT (ko ka : NameSeq) (intent : List β) (name : α) : OM (CObj α β) Unit := do
  let s ← OM.get
  let js ← OM.lift (intent.mapM (dictIdx s.aidx))
  let row ← OM.lift (flagsPy s.attributes.length js)
  let i ← OM.lift (dictIdx s.oidx name)
  let t ← OM.lift (s.np.setRow i row)
  OM.modify fun s => { s with np := t }
  initT ko ka (.array t) s.objects s.attributes

/-- fca/context.py:403-408 `delete_object`: the array is replaced before `del` (line 407). -/
def deleteObjectT (ko ka : NameSeq) (name : α) : OM (CObj α β) Unit := do
  let s ← OM.get
  let i ← OM.lift (dictIdx s.oidx name)
  let t ← OM.lift (s.np.deleteRow i)
  OM.modify fun s => { s with np := t }
  if ko.Frozen then OM.raise .typeError
  else
    let os ← OM.lift (listDel s.objects i)
    OM.modify fun s => { s with objects := os }
    initT ko ka (.lists t.rows) os s.attributes

/-- fca/context.py:410-415 `delete_attribute`. -/
def deleteAttributeT (ko ka : NameSeq) (name : β) : OM (CObj α β) Unit := do
  let s ← OM.get
  let j ← OM.lift (dictIdx s.aidx name)
  let t ← OM.lift (s.np.deleteCols [j])
  OM.modify fun s => { s with np := t }
  if ka.Frozen then OM.raise .typeError
  else
    let as ← OM.lift (listDel s.attributes j)
    OM.modify fun s => { s with attributes := as }
    initT ko ka (.lists t.rows) s.objects as

/-- fca/context.py:417-423 `delete_attributes`; the loop of lines 421-422 deletes nothing if `names` is empty. -/
def deleteAttributesT (ko ka : NameSeq) (names : List β) : OM (CObj α β) Unit := do
  let s ← OM.get
  let js ← OM.lift (names.mapM (dictIdx s.aidx))
  let t ← OM.lift (s.np.deleteCols js)
  OM.modify fun s => { s with np := t }
  if ka.Frozen ∧ js ≠ [] then OM.raise .typeError
  else
    delNames (js.insertionSort (· ≥ ·))
    let s ← OM.get
    initT ko ka (.lists t.rows) s.objects s.attributes

/-- fca/context.py:425-427 `rename_object`. -/
def renameObjectT (ko ka : NameSeq) (old name : α) : OM (CObj α β) Unit := do
  let s ← OM.get
  let i ← OM.lift (dictIdx s.oidx old)
  if ko.Frozen then OM.raise .typeError
  else
    let os ← OM.lift (listAssign s.objects i name)
    OM.modify fun s => { s with objects := os }
    initT ko ka (.array s.np) os s.attributes

/-- fca/context.py:429-431 `rename_attribute`. -/
def renameAttributeT (ko ka : NameSeq) (old name : β) : OM (CObj α β) Unit := do
  let s ← OM.get
  let j ← OM.lift (dictIdx s.aidx old)
  if ka.Frozen then OM.raise .typeError
  else
    let as ← OM.lift (listAssign s.attributes j name)
    OM.modify fun s => { s with attributes := as }
    initT ko ka (.array s.np) s.objects as

/-- Run one call; the kinds of the two sequences stay what they were when the context was made. -/
def callT (ko ka : NameSeq) : Call α β → OM (CObj α β) Unit
  | .op (.addObject row n) => addObjectT ko ka row n
  | .op (.addAttribute col n) => addAttributeT ko ka col n
  | .op (.addObjectWithIntent B n) => addObjectWithIntentT ko ka B n
  | .op (.addAttributeWithExtent A n) => addAttributeWithExtentT ko ka A n
  | .op (.setObjectIntent B n) => setObjectIntentT ko ka B n
  | .op (.setAttributeExtent A n) => setAttributeExtentT ko ka A n
  | .op (.deleteObject n) => deleteObjectT ko ka n
  | .op (.deleteAttribute n) => deleteAttributeT ko ka n
  | .op (.renameObject old new) => renameObjectT ko ka old new
  | .op (.renameAttribute old new) => renameAttributeT ko ka old new
  | .deleteAttributes names => deleteAttributesT ko ka names

/-- A history: exceptions are caught by the caller, who goes on with the object as it is then. -/
def historyT (ko ka : NameSeq) (s : CObj α β) (calls : List (Call α β)) : CObj α β :=
  calls.foldl (fun s k => (callT ko ka k s).2) s

end CObj

/-- fca/context.py:694-701 `__mul__`; `ka` is the kind of the attributes on the left, `ko` that of the objects on the right.
Sequences of different kinds are never equal (line 695). -/
def Ctx.mulT {α β γ : Type} [DecidableEq α] [DecidableEq β] [DecidableEq γ] [PyName α] [PyName β] [PyName γ]
    (ka ko : NameSeq) (l : Ctx α β) (r : Ctx β γ) : Py (Ctx α γ) :=
  if ka ≠ ko then .error .multiplicationException else l.mul r

/-! ### strings -/

/-- The letters of a string: what iterating it gives. -/
def letters (t : List Char) : List (List Char) := t.map fun ch => [ch]

/-- `t.index(x)`: the first position at which `x` begins in `t`. -/
def strIndex (t x : List Char) : Py ℕ :=
  match (List.range (t.length + 1)).find? fun i => decide (x <+: t.drop i) with
  | some i => .ok i
  | none => .error .valueError

namespace Ctx

variable {α β : Type} [DecidableEq α] [DecidableEq β] [PyName α] [PyName β]

/-- fca/context.py:380-382 `add_object_with_intent` with a string: `attr in intent` is the test for a substring. -/
def addObjectWithText (c : Ctx α (List Char)) (t : List Char) (name : α) : Mut α (List Char) :=
  c.addObject (c.attributes.map fun a => decide (a <:+: t)) name

/-- fca/context.py:384-386 `add_attribute_with_extent` with a string. -/
def addAttributeWithText (c : Ctx (List Char) β) (t : List Char) (name : β) : Mut (List Char) β :=
  c.addAttribute (c.objects.map fun o => decide (o <:+: t)) name

/-- fca/context.py:396-401 `set_object_intent` with a string: the letters are looked up. -/
def setObjectText (c : Ctx α (List Char)) (t : List Char) (name : α) : Mut α (List Char) :=
  c.setObjectIntent (letters t) name

/-- fca/context.py:388-394 `set_attribute_extent` with a string. -/
def setAttributeText (c : Ctx (List Char) β) (t : List Char) (name : β) : Mut (List Char) β :=
  c.setAttributeExtent (letters t) name

/-- fca/context.py:356-359 `get_value` for a context with the names in the strings `so` and `sa`. -/
def getValueText (nd : Nd) (so sa o a : List Char) : Py Bool := do
  let i ← strIndex so o
  let j ← strIndex sa a
  nd.cell i j

end Ctx
