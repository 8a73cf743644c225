/-
Model of changes of a `Context` object from outside, through what its getters hand out: `c.objects` and `c.attributes`
are the lists of the object (fca/context.py:255-261), `c[i]` is a row of `np_table` (fca/context.py:658-659, a view).
-/
import Verif.Model.ContextObject

/-- `t[i][j] = v` for `i, j ≥ 0`. -/
def Nd.setCell (t : Nd) (i j : ℕ) (v : Bool) : Py Nd :=
  match t.cols with
  | none => .error .indexError
  | some n =>
    if i < t.rows.length ∧ j < n then .ok ⟨some n, t.rows.modify i fun r => r.set j v⟩ else .error .indexError

namespace CObj

variable {α β : Type} [DecidableEq α] [DecidableEq β]

/-- The lists and the array, without `cross_table` and the dictionaries. -/
def view (s : CObj α β) : Ctx α β := ⟨s.objects, s.attributes, s.np⟩

/-- `c[i][j] = v`: `__getitem__` (fca/context.py:658-659) returns a view of the row of `np_table`. -/
def setCell (i j : ℕ) (v : Bool) : OM (CObj α β) Unit := do
  let s ← OM.get
  let t ← OM.lift (s.np.setCell i j v)
  OM.modify fun s => { s with np := t }

/-- `c.objects[i] = x`: the getter (fca/context.py:259-261) returns the list itself. -/
def putObject (i : ℕ) (x : α) : OM (CObj α β) Unit := do
  let s ← OM.get
  let os ← OM.lift (listAssign s.objects i x)
  OM.modify fun s => { s with objects := os }

/-- `c.objects.append(x)`. -/
def appendObject (x : α) : OM (CObj α β) Unit := OM.modify fun s => { s with objects := s.objects ++ [x] }

/-- fca/context.py:672-692 `__eq__` of two contexts, with the attributes it reads: the texts (lines 663-670) come from
the lists and `np_table`, the last comparison is between the array of the other one and `cross_table` (line 689). -/
def eq (strO : α → List Char) (strA : β → List Char) (c d : CObj α β) : Py Bool := do
  let rc ← c.view.repr strO strA
  let rd ← d.view.repr strO strA
  if rc = rd then .ok true
  else if c.objects.length ≠ d.objects.length ∨ c.attributes.length ≠ d.attributes.length then
    .ok false
  else if c.objects.toFinset ≠ d.objects.toFinset ∨ c.attributes.toFinset ≠ d.attributes.toFinset then
    .ok false
  else do
    let is ← c.objects.mapM (firstIdx d.objects)
    let js ← c.attributes.mapM (firstIdx d.attributes)
    let table ← is.mapM fun i => js.mapM fun j => d.np.cell i j
    .ok (decide (table = c.cross))

section loop
variable [PyName α] [PyName β]

/-- The caller's loop `for o in c.objects: if p(o): c.delete_object(o)`. The loop keeps the list it began with, `held`,
and a position. `delete_object` (fca/context.py:403-408) removes the name from the list the object has (line 407, in
place), and the constructor then gives the object a copy (lines 232, 243): `same` tells whether the list of the object is
still the one of the loop. The recursion is on `fuel`, at least the length of the list suffices. An exception ends the
loop. -/
def deleteLoop (p : α → Bool) : ℕ → ℕ → List α → Bool → CObj α β → Py Unit × CObj α β
  | 0, _, _, _, s => (.ok (), s)
  | fuel + 1, pos, held, same, s =>
    match held[pos]? with
    | none => (.ok (), s)
    | some o =>
      if p o then
        match deleteObject o s with
        | (.error e, s') => (.error e, s')
        | (.ok _, s') =>
          match dictIdx s.oidx o with
          | .ok i => deleteLoop p fuel (pos + 1) (if same then held.eraseIdx i else held) false s'
          | .error e => (.error e, s')
      else deleteLoop p fuel (pos + 1) held same s

end loop

end CObj
