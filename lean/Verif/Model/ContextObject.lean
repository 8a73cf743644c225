/-
Model of the attributes of a `Context` object one by one: the lists of names, `np_table`, `cross_table` and the
dictionaries `object_indices`, `attribute_indices` (fca/context.py:243-249), with the mutators as sequences of
assignments. An exception keeps the assignments made before it. The other model files use `Ctx`, in which
`cross_table` and the dictionaries are functions of the rest.
-/
import Verif.Model.ContextOps
import Verif.SpecHistory

/-- A computation on a state that may raise; the state after an exception is kept. -/
def OM (σ γ : Type) : Type := σ → Py γ × σ

namespace OM

variable {σ γ : Type}

instance : Monad (OM σ) where
  pure x := fun s => (.ok x, s)
  bind m f := fun s =>
    match m s with
    | (.ok x, s') => f x s'
    | (.error e, s') => (.error e, s')

/-- A computation that does not depend on the state. -/
def lift (r : Py γ) : OM σ γ := fun s => (r, s)

/-- The state. -/
def get : OM σ σ := fun s => (.ok s, s)

/-- An assignment. -/
def modify (f : σ → σ) : OM σ Unit := fun s => (.ok (), f s)

/-- `raise`. -/
def raise (e : PyErr) : OM σ γ := fun s => (.error e, s)

end OM

/-- `{x: i for i, x in enumerate(l)}` (fca/context.py:247-249), as the list of its items. -/
def indexDict {γ : Type} [DecidableEq γ] (l : List γ) : List (γ × ℕ) := dictOf l.zipIdx

/-- `d[x]`. -/
def dictIdx {γ : Type} [DecidableEq γ] (d : List (γ × ℕ)) (x : γ) : Py ℕ :=
  match d.lookup x with
  | some i => .ok i
  | none => .error .keyError

/-- `l[i] = v`. -/
def listAssign {γ : Type} (l : List γ) (i : ℕ) (v : γ) : Py (List γ) :=
  if i < l.length then .ok (l.set i v) else .error .indexError

/-- `del l[i]`. -/
def listDel {γ : Type} (l : List γ) (i : ℕ) : Py (List γ) :=
  if i < l.length then .ok (l.eraseIdx i) else .error .indexError

/-- fca/context.py:389-391, 397-399: the new column or row. -/
def flagsPy (n : ℕ) (is : List ℕ) : Py (List Bool) := is.foldlM (fun l i => listAssign l i true) (List.replicate n false)

namespace Nd

/-- `t[:, j] = col` (fca/context.py:392). (A list of length one would be broadcast; the lengths agree in all states
reached.) -/
def setCol (t : Nd) (j : ℕ) (col : List Bool) : Py Nd :=
  match t.cols with
  | none => .error .indexError
  | some n =>
    if j < n then
      if col.length = t.rows.length then .ok ⟨some n, List.zipWith (fun r b => r.set j b) t.rows col⟩
      else .error .valueError
    else .error .indexError

/-- `t[i] = row` (fca/context.py:400). -/
def setRow (t : Nd) (i : ℕ) (row : List Bool) : Py Nd :=
  match t.cols with
  | none => .error .indexError
  | some n =>
    if i < t.rows.length then
      if row.length = n then .ok ⟨some n, t.rows.set i row⟩ else .error .valueError
    else .error .indexError

/-- `np.delete(t, i, 0)` (fca/context.py:405). -/
def deleteRow (t : Nd) (i : ℕ) : Py Nd :=
  if i < t.rows.length then .ok ⟨t.cols, t.rows.eraseIdx i⟩ else .error .indexError

/-- `np.delete(t, js, 1)` (fca/context.py:412, 419): every listed column is removed once. -/
def deleteCols (t : Nd) (js : List ℕ) : Py Nd :=
  match t.cols with
  | none => .error .axisError
  | some n =>
    if js.all (· < n) then
      .ok ⟨some ((List.range n).filter (· ∉ js)).length,
        t.rows.map fun r => ((List.range r.length).filter (· ∉ js)).map fun k => r.getD k false⟩
    else .error .indexError

end Nd

/-- The first argument of the constructor: a list of lists or an array. -/
inductive TableArg
  | lists (l : List (List Bool))
  | array (t : Nd)

/-- The rows of the argument. -/
def TableArg.rows : TableArg → List (List Bool)
  | .lists l => l
  | .array t => t.rows

/-- `np.array(cross_table, dtype=bool)` (fca/context.py:245). -/
def TableArg.toArray : TableArg → Py Nd
  | .lists l => Nd.ofLists l
  | .array t => .ok t

/-- The attributes of a `Context` object (fca/context.py:243-249). -/
structure CObj (α β : Type) where
  objects : List α
  attributes : List β
  np : Nd
  cross : List (List Bool)
  oidx : List (α × ℕ)
  aidx : List (β × ℕ)

namespace CObj

variable {α β : Type} [DecidableEq α] [DecidableEq β]

instance : DecidableEq (CObj α β) := fun s t =>
  decidable_of_iff (s.objects = t.objects ∧ s.attributes = t.attributes ∧ s.np = t.np ∧ s.cross = t.cross ∧
    s.oidx = t.oidx ∧ s.aidx = t.aidx) (by cases s; cases t; simp)

section mutators
variable [PyName α] [PyName β]

/-- fca/context.py:201-249 `__init__`: the checks, then the assignments in their order; the conversion in line 245
comes after the names have been assigned. -/
def init (t : TableArg) (objs : List α) (atts : List β) : OM (CObj α β) Unit := do
  if t.rows.length ≠ objs.length then OM.raise .valueError
  else if t.rows ≠ [] ∧ (t.rows.headD []).length ≠ atts.length then OM.raise .valueError
  else
    OM.modify fun s => { s with objects := renameAll objs }
    OM.modify fun s => { s with attributes := renameAll atts }
    let a ← OM.lift t.toArray
    OM.modify fun s => { s with np := a }
    OM.modify fun s => { s with cross := a.rows }
    OM.modify fun s => { s with oidx := indexDict (renameAll objs) }
    OM.modify fun s => { s with aidx := indexDict (renameAll atts) }

/-- fca/context.py:361-366 `add_attribute`. -/
def addAttribute (col : List Bool) (name : β) : OM (CObj α β) Unit := do
  let s ← OM.get
  let t ← OM.lift (s.np.appendCol col)
  init (.array t) s.objects (s.attributes ++ [name])

/-- fca/context.py:368-378 `add_object`. -/
def addObject (row : List Bool) (name : α) : OM (CObj α β) Unit := do
  let s ← OM.get
  let t ← OM.lift (s.np.stackRow row)
  init (.array t) (s.objects ++ [name]) s.attributes

/-- fca/context.py:380-382 `add_object_with_intent`. -/
def addObjectWithIntent (intent : Finset β) (name : α) : OM (CObj α β) Unit := do
  let s ← OM.get
  addObject (s.attributes.map fun a => decide (a ∈ intent)) name

/-- fca/context.py:384-386 `add_attribute_with_extent`. -/
def addAttributeWithExtent (extent : Finset α) (name : β) : OM (CObj α β) Unit := do
  let s ← OM.get
  addAttribute (s.objects.map fun o => decide (o ∈ extent)) name

/-- fca/context.py:388-394 `set_attribute_extent`; the array is written in place (line 392). -/
def setAttributeExtent (extent : List α) (name : β) : OM (CObj α β) Unit := do
  let s ← OM.get
  let is ← OM.lift (extent.mapM (dictIdx s.oidx))
  let col ← OM.lift (flagsPy s.objects.length is)
  let j ← OM.lift (dictIdx s.aidx name)
  let t ← OM.lift (s.np.setCol j col)
  OM.modify fun s => { s with np := t }
  init (.lists t.rows) s.objects s.attributes

/-- fca/context.py:396-401 `set_object_intent`. -/
def setObjectIntent (intent : List β) (name : α) : OM (CObj α β) Unit := do
  let s ← OM.get
  let js ← OM.lift (intent.mapM (dictIdx s.aidx))
  let row ← OM.lift (flagsPy s.attributes.length js)
  let i ← OM.lift (dictIdx s.oidx name)
  let t ← OM.lift (s.np.setRow i row)
  OM.modify fun s => { s with np := t }
  init (.array t) s.objects s.attributes

/-- fca/context.py:403-408 `delete_object`. -/
def deleteObject (name : α) : OM (CObj α β) Unit := do
  let s ← OM.get
  let i ← OM.lift (dictIdx s.oidx name)
  let t ← OM.lift (s.np.deleteRow i)
  OM.modify fun s => { s with np := t }
  let os ← OM.lift (listDel s.objects i)
  OM.modify fun s => { s with objects := os }
  init (.lists t.rows) os s.attributes

/-- fca/context.py:410-415 `delete_attribute`. -/
def deleteAttribute (name : β) : OM (CObj α β) Unit := do
  let s ← OM.get
  let j ← OM.lift (dictIdx s.aidx name)
  let t ← OM.lift (s.np.deleteCols [j])
  OM.modify fun s => { s with np := t }
  let as ← OM.lift (listDel s.attributes j)
  OM.modify fun s => { s with attributes := as }
  init (.lists t.rows) s.objects as

/-- fca/context.py:421-422: the loop of `delete_attributes`. -/
def delNames : List ℕ → OM (CObj α β) Unit
  | [] => pure ()
  | j :: js => do
    let s ← OM.get
    let as ← OM.lift (listDel s.attributes j)
    OM.modify fun s => { s with attributes := as }
    delNames js

/-- fca/context.py:417-423 `delete_attributes`. -/
def deleteAttributes (names : List β) : OM (CObj α β) Unit := do
  let s ← OM.get
  let js ← OM.lift (names.mapM (dictIdx s.aidx))
  let t ← OM.lift (s.np.deleteCols js)
  OM.modify fun s => { s with np := t }
  delNames (js.insertionSort (· ≥ ·))
  let s ← OM.get
  init (.lists t.rows) s.objects s.attributes

/-- fca/context.py:425-427 `rename_object`. -/
def renameObject (old name : α) : OM (CObj α β) Unit := do
  let s ← OM.get
  let i ← OM.lift (dictIdx s.oidx old)
  let os ← OM.lift (listAssign s.objects i name)
  OM.modify fun s => { s with objects := os }
  init (.array s.np) os s.attributes

/-- fca/context.py:429-431 `rename_attribute`. -/
def renameAttribute (old name : β) : OM (CObj α β) Unit := do
  let s ← OM.get
  let j ← OM.lift (dictIdx s.aidx old)
  let as ← OM.lift (listAssign s.attributes j name)
  OM.modify fun s => { s with attributes := as }
  init (.array s.np) s.objects as

/-- Run one mutator. -/
def exec : Spec.TOp α β → OM (CObj α β) Unit
  | .addObject row n => addObject row n
  | .addAttribute col n => addAttribute col n
  | .addObjectWithIntent B n => addObjectWithIntent B n
  | .addAttributeWithExtent A n => addAttributeWithExtent A n
  | .setObjectIntent B n => setObjectIntent B n
  | .setAttributeExtent A n => setAttributeExtent A n
  | .deleteObject n => deleteObject n
  | .deleteAttribute n => deleteAttribute n
  | .renameObject old new => renameObject old new
  | .renameAttribute old new => renameAttribute old new

/-- A call: one of the mutators above, or `delete_attributes` (fca/context.py:417-423). -/
inductive Call (α β : Type)
  | op (o : Spec.TOp α β)
  | deleteAttributes (names : List β)

/-- Run one call. -/
def call : Call α β → OM (CObj α β) Unit
  | .op o => exec o
  | .deleteAttributes names => deleteAttributes names

/-- A history: exceptions are caught by the caller, who goes on with the object as it is then. -/
def history (s : CObj α β) (calls : List (Call α β)) : CObj α β := calls.foldl (fun s k => (call k s).2) s

end mutators

/-- fca/context.py:330-341 `get_object_intent`. -/
def objectIntent (s : CObj α β) (o : α) : Py (Finset β) := do
  let i ← dictIdx s.oidx o
  let r ← s.np.row i
  let names ← (nonzero r).mapM (pyGet s.attributes)
  .ok names.toFinset

/-- fca/context.py:343-354 `get_attribute_extent`. -/
def attributeExtent (s : CObj α β) (a : β) : Py (Finset α) := do
  let j ← dictIdx s.aidx a
  let r ← s.np.col j
  let names ← (nonzero r).mapM (pyGet s.objects)
  .ok names.toFinset

end CObj
