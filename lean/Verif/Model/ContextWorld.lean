/-
Model of several `Context` objects with the lists and arrays they hold: which assignments change a list or an array in
place, which make the object hold another one. `copy.copy(c)` gives an object that holds the lists and the array of `c`;
`copy.deepcopy(c)` and the constructor copy them.
-/
import Verif.Model.ContextObject

/-- The attributes of a `Context` object (fca/context.py:243-249): addresses of the two lists of names and of the array.
`cross_table` and the dictionaries are never changed in place and are values. `bound` is the object whose methods the
instance attributes `get_object_intent_by_index` and `get_attribute_extent_by_index` are; they exist only after a basis
computation (fca/context.py:97-108). -/
structure CRec (α β : Type) where
  o : ℕ
  a : ℕ
  t : ℕ
  cross : List (List Bool)
  oidx : List (α × ℕ)
  aidx : List (β × ℕ)
  bound : Option ℕ

/-- Lists, arrays and `Context` objects of a program. Addresses from `next` on and objects from `size` on are not in use. -/
structure CWorld (α β : Type) where
  olist : ℕ → List α
  alist : ℕ → List β
  arr : ℕ → Nd
  next : ℕ
  recs : ℕ → CRec α β
  size : ℕ

namespace CWorld

variable {α β : Type} [DecidableEq α] [DecidableEq β]

/-- The attributes of an object at present. -/
def load (w : CWorld α β) (k : ℕ) : CObj α β :=
  ⟨w.olist (w.recs k).o, w.alist (w.recs k).a, w.arr (w.recs k).t, (w.recs k).cross, (w.recs k).oidx, (w.recs k).aidx⟩

/-- The attributes of `self`. -/
def self (k : ℕ) : OM (CWorld α β) (CObj α β) := fun w => (.ok (w.load k), w)

/-- `self.objects[i] = …`, `del self.objects[i]`: the list is changed in place. -/
def writeObjects (k : ℕ) (l : List α) : OM (CWorld α β) Unit :=
  OM.modify fun w => { w with olist := Function.update w.olist (w.recs k).o l }

/-- `self.attributes[i] = …`, `del self.attributes[i]`. -/
def writeAttributes (k : ℕ) (l : List β) : OM (CWorld α β) Unit :=
  OM.modify fun w => { w with alist := Function.update w.alist (w.recs k).a l }

/-- `self.np_table[…] = …`: the array is changed in place. -/
def writeArray (k : ℕ) (t : Nd) : OM (CWorld α β) Unit :=
  OM.modify fun w => { w with arr := Function.update w.arr (w.recs k).t t }

/-- `self.np_table = …`: another array. -/
def bindArray (k : ℕ) (t : Nd) : OM (CWorld α β) Unit :=
  OM.modify fun w => { w with
    arr := Function.update w.arr w.next t
    recs := Function.update w.recs k { w.recs k with t := w.next }
    next := w.next + 1 }

/-- `self._objects = …` (fca/context.py:243), a new list. -/
def bindObjects (k : ℕ) (l : List α) : OM (CWorld α β) Unit :=
  OM.modify fun w => { w with
    olist := Function.update w.olist w.next l
    recs := Function.update w.recs k { w.recs k with o := w.next }
    next := w.next + 1 }

/-- `self._attributes = …` (fca/context.py:244), a new list. -/
def bindAttributes (k : ℕ) (l : List β) : OM (CWorld α β) Unit :=
  OM.modify fun w => { w with
    alist := Function.update w.alist w.next l
    recs := Function.update w.recs k { w.recs k with a := w.next }
    next := w.next + 1 }

/-- fca/context.py:246-249: `cross_table` and the dictionaries. -/
def bindRest (k : ℕ) (cross : List (List Bool)) (oidx : List (α × ℕ)) (aidx : List (β × ℕ)) : OM (CWorld α β) Unit :=
  OM.modify fun w => { w with
    recs := Function.update w.recs k { w.recs k with cross := cross, oidx := oidx, aidx := aidx } }

section mutators
variable [PyName α] [PyName β]

/-- fca/context.py:201-249 `__init__`: lists of names are copied (lines 222, 232), `np.array` copies the table (245). -/
def init (k : ℕ) (t : TableArg) (objs : List α) (atts : List β) : OM (CWorld α β) Unit := do
  if t.rows.length ≠ objs.length then OM.raise .valueError
  else if t.rows ≠ [] ∧ (t.rows.headD []).length ≠ atts.length then OM.raise .valueError
  else
    bindObjects k (renameAll objs)
    bindAttributes k (renameAll atts)
    let a ← OM.lift t.toArray
    bindArray k a
    bindRest k a.rows (indexDict (renameAll objs)) (indexDict (renameAll atts))

/-- fca/context.py:361-366 `add_attribute`: a new table and a new list. -/
def addAttribute (k : ℕ) (col : List Bool) (name : β) : OM (CWorld α β) Unit := do
  let s ← self k
  let t ← OM.lift (s.np.appendCol col)
  init k (.array t) s.objects (s.attributes ++ [name])

/-- fca/context.py:368-378 `add_object`: a new table and a new list. -/
def addObject (k : ℕ) (row : List Bool) (name : α) : OM (CWorld α β) Unit := do
  let s ← self k
  let t ← OM.lift (s.np.stackRow row)
  init k (.array t) (s.objects ++ [name]) s.attributes

/-- fca/context.py:380-382 `add_object_with_intent`. -/
def addObjectWithIntent (k : ℕ) (intent : Finset β) (name : α) : OM (CWorld α β) Unit := do
  let s ← self k
  addObject k (s.attributes.map fun a => decide (a ∈ intent)) name

/-- fca/context.py:384-386 `add_attribute_with_extent`. -/
def addAttributeWithExtent (k : ℕ) (extent : Finset α) (name : β) : OM (CWorld α β) Unit := do
  let s ← self k
  addAttribute k (s.objects.map fun o => decide (o ∈ extent)) name

/-- fca/context.py:388-394 `set_attribute_extent`: line 392 writes into the array. -/
def setAttributeExtent (k : ℕ) (extent : List α) (name : β) : OM (CWorld α β) Unit := do
  let s ← self k
  let is ← OM.lift (extent.mapM (dictIdx s.oidx))
  let col ← OM.lift (flagsPy s.objects.length is)
  let j ← OM.lift (dictIdx s.aidx name)
  let t ← OM.lift (s.np.setCol j col)
  writeArray k t
  init k (.lists t.rows) s.objects s.attributes

/-- fca/context.py:396-401 `set_object_intent`: line 400 writes into the array. -/
def setObjectIntent (k : ℕ) (intent : List β) (name : α) : OM (CWorld α β) Unit := do
  let s ← self k
  let js ← OM.lift (intent.mapM (dictIdx s.aidx))
  let row ← OM.lift (flagsPy s.attributes.length js)
  let i ← OM.lift (dictIdx s.oidx name)
  let t ← OM.lift (s.np.setRow i row)
  writeArray k t
  init k (.array t) s.objects s.attributes

/-- fca/context.py:403-408 `delete_object`: another array (line 405), the name is deleted from the list itself (407). -/
def deleteObject (k : ℕ) (name : α) : OM (CWorld α β) Unit := do
  let s ← self k
  let i ← OM.lift (dictIdx s.oidx name)
  let t ← OM.lift (s.np.deleteRow i)
  bindArray k t
  let os ← OM.lift (listDel s.objects i)
  writeObjects k os
  init k (.lists t.rows) os s.attributes

/-- fca/context.py:410-415 `delete_attribute`. -/
def deleteAttribute (k : ℕ) (name : β) : OM (CWorld α β) Unit := do
  let s ← self k
  let j ← OM.lift (dictIdx s.aidx name)
  let t ← OM.lift (s.np.deleteCols [j])
  bindArray k t
  let as ← OM.lift (listDel s.attributes j)
  writeAttributes k as
  init k (.lists t.rows) s.objects as

/-- fca/context.py:421-422: the loop of `delete_attributes`. -/
def delNames (k : ℕ) : List ℕ → OM (CWorld α β) Unit
  | [] => pure ()
  | j :: js => do
    let s ← self k
    let as ← OM.lift (listDel s.attributes j)
    writeAttributes k as
    delNames k js

/-- fca/context.py:417-423 `delete_attributes`. -/
def deleteAttributes (k : ℕ) (names : List β) : OM (CWorld α β) Unit := do
  let s ← self k
  let js ← OM.lift (names.mapM (dictIdx s.aidx))
  let t ← OM.lift (s.np.deleteCols js)
  bindArray k t
  delNames k (js.insertionSort (· ≥ ·))
  let s ← self k
  init k (.lists t.rows) s.objects s.attributes

/-- fca/context.py:425-427 `rename_object`: the name is replaced in the list itself. -/
def renameObject (k : ℕ) (old name : α) : OM (CWorld α β) Unit := do
  let s ← self k
  let i ← OM.lift (dictIdx s.oidx old)
  let os ← OM.lift (listAssign s.objects i name)
  writeObjects k os
  init k (.array s.np) os s.attributes

/-- fca/context.py:429-431 `rename_attribute`. -/
def renameAttribute (k : ℕ) (old name : β) : OM (CWorld α β) Unit := do
  let s ← self k
  let j ← OM.lift (dictIdx s.aidx old)
  let as ← OM.lift (listAssign s.attributes j name)
  writeAttributes k as
  init k (.array s.np) s.objects as

/-- Run one call on object `k`. -/
def call (k : ℕ) : CObj.Call α β → OM (CWorld α β) Unit
  | .op (.addObject row n) => addObject k row n
  | .op (.addAttribute col n) => addAttribute k col n
  | .op (.addObjectWithIntent B n) => addObjectWithIntent k B n
  | .op (.addAttributeWithExtent A n) => addAttributeWithExtent k A n
  | .op (.setObjectIntent B n) => setObjectIntent k B n
  | .op (.setAttributeExtent A n) => setAttributeExtent k A n
  | .op (.deleteObject n) => deleteObject k n
  | .op (.deleteAttribute n) => deleteAttribute k n
  | .op (.renameObject old new) => renameObject k old new
  | .op (.renameAttribute old new) => renameAttribute k old new
  | .deleteAttributes names => deleteAttributes k names

/-- A new object with lists and an array of its own. -/
def push (w : CWorld α β) (s : CObj α β) : CWorld α β :=
  ⟨Function.update w.olist w.next s.objects, Function.update w.alist w.next s.attributes,
    Function.update w.arr w.next s.np, w.next + 1,
    Function.update w.recs w.size ⟨w.next, w.next, w.next, s.cross, s.oidx, s.aidx, none⟩, w.size + 1⟩

/-- `Context(table, objects, attributes)`: fca/context.py:201-249 on a new object; without one if it raises. -/
def construct (t : TableArg) (objs : List α) (atts : List β) : OM (CWorld α β) Unit := fun w =>
  match CObj.init t objs atts ⟨[], [], ⟨none, []⟩, [], [], []⟩ with
  | (.ok _, s) => (.ok (), w.push s)
  | (.error e, _) => (.error e, w)

/-- `copy.deepcopy(c)`: fca/context.py:263-266. -/
def deepcopy (k : ℕ) : OM (CWorld α β) Unit := do
  let s ← self k
  construct (.array s.np) s.objects s.attributes

/-- `copy.copy(c)`: the class (fca/context.py:124) has no `__copy__`, so that the new object has the attributes of the old
one. -/
def shallow (k : ℕ) : OM (CWorld α β) Unit :=
  OM.modify fun w => { w with recs := Function.update w.recs w.size (w.recs k), size := w.size + 1 }

/-- A basis computation that returns, `c.get_attribute_implications()` or another function decorated with
`basis_computation` (fca/context.py:97-108): lines 99-100 read the two methods, lines 106-107 assign what has been read to
the object, so that a method of the class becomes an attribute of the object that is bound to it. (The result is that of
C24; a computation that raises leaves the object with the cache of C33.) -/
def basis (k : ℕ) : OM (CWorld α β) Unit :=
  OM.modify fun w => { w with
    recs := Function.update w.recs k { w.recs k with bound := some ((w.recs k).bound.getD k) } }

/-- fca/context.py:339-341 `get_object_intent`: the position is that of the object itself, row and names (lines 330-337) are
those of the object the method is bound to. -/
def objectIntent (w : CWorld α β) (k : ℕ) (o : α) : Py (Finset β) := do
  let i ← dictIdx (w.load k).oidx o
  let s := w.load ((w.recs k).bound.getD k)
  let r ← s.np.row i
  let names ← (nonzero r).mapM (pyGet s.attributes)
  .ok names.toFinset

/-- fca/context.py:352-354 `get_attribute_extent`, likewise. -/
def attributeExtent (w : CWorld α β) (k : ℕ) (a : β) : Py (Finset α) := do
  let j ← dictIdx (w.load k).aidx a
  let s := w.load ((w.recs k).bound.getD k)
  let r ← s.np.col j
  let names ← (nonzero r).mapM (pyGet s.objects)
  .ok names.toFinset

/-- What a program may do. -/
inductive Cmd (α β : Type)
  | call (k : ℕ) (c : CObj.Call α β)
  | construct (t : TableArg) (objs : List α) (atts : List β)
  | deepcopy (k : ℕ)
  | copy (k : ℕ)
  | basis (k : ℕ)

/-- Run one command. -/
def exec : Cmd α β → OM (CWorld α β) Unit
  | .call k c => call k c
  | .construct t objs atts => construct t objs atts
  | .deepcopy k => deepcopy k
  | .copy k => shallow k
  | .basis k => basis k

/-- A program; exceptions are caught, and it goes on. -/
def run (w : CWorld α β) (p : List (Cmd α β)) : CWorld α β := p.foldl (fun w c => (exec c w).2) w

end mutators

end CWorld
