/-
Model of fca/context.py (class Context) and of the derivation functions in
fca/algorithms/closure_operators.py:8-35.
-/
import Verif.Model.Implication
import Mathlib.Data.List.Basic
import Mathlib.Data.List.Nodup

/-- Names (objects or attributes). `suffix x i` is `str(x) + '_{}'.format(i)`
(fca/context.py:228, 238). -/
class PyName (α : Type) where
  suffix : α → ℕ → α

/-- Strings as lists of characters: `str(x) + '_{}'.format(i)` (fca/context.py:228, 238). -/
instance : PyName (List Char) := ⟨fun x i => x ++ '_' :: Nat.toDigits 10 i⟩

/-- `l[i]` for a Python list and a non-negative index. -/
def pyGet {γ : Type} (l : List γ) (i : ℕ) : Py γ :=
  match l[i]? with
  | some x => .ok x
  | none => .error .indexError

/-- Positions of the true entries, as numpy's `nonzero()[0]`. -/
def nonzero (l : List Bool) : List ℕ := (List.range l.length).filter fun i => l.getD i false

/-- A boolean numpy array as built by the code: either one-dimensional and empty
(`np.array([])`, `cols = none`, `shape == (0,)`) or two-dimensional with `cols = some n`. -/
structure Nd where
  cols : Option ℕ
  rows : List (List Bool)
  deriving DecidableEq

namespace Nd

/-- `np.array(lists, dtype=bool)` (fca/context.py:245); ragged input raises ValueError
(numpy >= 1.24). -/
def ofLists : List (List Bool) → Py Nd
  | [] => .ok ⟨none, []⟩
  | r :: rs =>
    if rs.all fun s => s.length == r.length then .ok ⟨some r.length, r :: rs⟩
    else .error .valueError

/-- `t[i, :]` -/
def row (t : Nd) (i : ℕ) : Py (List Bool) :=
  match t.cols with
  | none => .error .indexError
  | some _ => pyGet t.rows i

/-- `t[:, j]` -/
def col (t : Nd) (j : ℕ) : Py (List Bool) :=
  match t.cols with
  | none => .error .indexError
  | some n => if j < n then .ok (t.rows.map fun r => r.getD j false) else .error .indexError

/-- `t[i][j]` -/
def cell (t : Nd) (i j : ℕ) : Py Bool := do
  let r ← pyGet t.rows i
  pyGet r j

end Nd

/-- A `Context` object: `_objects`, `_attributes`, `np_table` (fca/context.py:243-249).
`cross_table`, `object_indices` and `attribute_indices` are functions of these. -/
structure Ctx (α β : Type) where
  objects : List α
  attributes : List β
  nd : Nd
  deriving DecidableEq

section names
variable {α : Type} [DecidableEq α]

/-- fca/context.py:224-228, body of the loop at list position `k`: the name at position `k` of the
(already modified) list, if it occurs more than once, is replaced at every occurrence. -/
def renameStep [PyName α] (l : List α) (k : ℕ) : List α :=
  match l[k]? with
  | none => l
  | some x => if 1 < l.count x then l.mapIdx fun i y => if y = x then PyName.suffix x i else y else l

/-- fca/context.py:222-231 (attributes) and 232-241 (objects). -/
def renameAll [PyName α] (l : List α) : List α :=
  if l.toFinset.card < l.length then (List.range l.length).foldl renameStep l else l

/-- Lookup in `object_indices` / `attribute_indices` (fca/context.py:247-249): the dict
comprehension keeps the last position of a name. -/
def lastIdx (l : List α) (x : α) : Py ℕ :=
  match l.reverse.idxOf? x with
  | some k => .ok (l.length - 1 - k)
  | none => .error .keyError

/-- `l.index(x)`. -/
def firstIdx (l : List α) (x : α) : Py ℕ :=
  match l.idxOf? x with
  | some k => .ok k
  | none => .error .valueError

end names

namespace Ctx

variable {α β : Type} [DecidableEq α] [DecidableEq β]

/-- fca/context.py:201-249 `__init__` for a table that is already an array. -/
def ofNd [PyName α] [PyName β] (t : Nd) (objs : List α) (atts : List β) : Py (Ctx α β) :=
  if t.rows.length ≠ objs.length then .error .valueError
  else if t.rows ≠ [] ∧ (t.rows.headD []).length ≠ atts.length then .error .valueError
  else .ok ⟨renameAll objs, renameAll atts, t⟩

/-- fca/context.py:201-249 `Context(cross_table, objects, attributes)` for a list of lists. -/
def make [PyName α] [PyName β] (table : List (List Bool)) (objs : List α) (atts : List β) :
    Py (Ctx α β) :=
  if table.length ≠ objs.length then .error .valueError
  else if table ≠ [] ∧ (table.headD []).length ≠ atts.length then .error .valueError
  else do
    let t ← Nd.ofLists table
    .ok ⟨renameAll objs, renameAll atts, t⟩

/-! #### Access -/

/-- fca/context.py:655-656 `__len__`: `len(self.table)`. -/
def len (c : Ctx α β) : ℕ := c.nd.rows.length

/-- fca/context.py:658-659 `__getitem__` followed by an index: `c[i][j]`, `i, j ≥ 0`. -/
def getItem (c : Ctx α β) (i j : ℕ) : Py Bool := c.nd.cell i j

/-- fca/context.py:330-337 `get_object_intent_by_index`. -/
def intentByIndex (c : Ctx α β) (i : ℕ) : Py (Finset β) := do
  let r ← c.nd.row i
  let names ← (nonzero r).mapM (pyGet c.attributes)
  .ok names.toFinset

/-- fca/context.py:339-341 `get_object_intent`. -/
def objectIntent (c : Ctx α β) (o : α) : Py (Finset β) := do
  let i ← lastIdx c.objects o
  c.intentByIndex i

/-- fca/context.py:343-350 `get_attribute_extent_by_index`. -/
def extentByIndex (c : Ctx α β) (j : ℕ) : Py (Finset α) := do
  let r ← c.nd.col j
  let names ← (nonzero r).mapM (pyGet c.objects)
  .ok names.toFinset

/-- fca/context.py:352-354 `get_attribute_extent`. -/
def attributeExtent (c : Ctx α β) (a : β) : Py (Finset α) := do
  let j ← lastIdx c.attributes a
  c.extentByIndex j

/-- fca/context.py:356-359 `get_value`. -/
def getValue (c : Ctx α β) (o : α) (a : β) : Py Bool := do
  let i ← firstIdx c.objects o
  let j ← firstIdx c.attributes a
  c.nd.cell i j

/-- fca/context.py:319-328 `examples` / `intents`: the list of yielded sets. -/
def examples (c : Ctx α β) : Py (List (Finset β)) :=
  (List.range c.objects.length).mapM c.intentByIndex

/-- fca/context.py:555-558 `get_object_attribute_pairs`. For a one-dimensional (empty) table
`nonzero()` has a single component and `zip` would yield 1-tuples, but there are none. -/
def pairs (c : Ctx α β) : Py (List (α × β)) :=
  ((List.range c.nd.rows.length).flatMap fun i =>
    (nonzero (c.nd.rows.getD i [])).map fun j => (i, j)).mapM fun ij => do
      let o ← pyGet c.objects ij.1
      let a ← pyGet c.attributes ij.2
      .ok (o, a)

/-! #### Derivation by indices -/

/-- `common &= row` in a loop over the remaining indices. -/
def andAll (get : ℕ → Py (List Bool)) (start : List Bool) (is : List ℕ) : Py (List Bool) :=
  is.foldlM (fun acc k => do
    let r ← get k
    .ok (List.zipWith (· && ·) acc r)) start

/-- fca/context.py:433-447 `oprime_inds`. The `except IndexError` also catches an
index out of range and a one-dimensional table. -/
def oprimeInds (c : Ctx α β) : List ℕ → Py (List ℕ)
  | [] => .ok (List.range c.attributes.length)
  | i :: is =>
    match c.nd.row i with
    | .error _ => .ok (List.range c.attributes.length)
    | .ok r => do
      let r' ← andAll c.nd.row r is
      .ok (nonzero r')

/-- fca/context.py:449-463 `aprime_inds`. -/
def aprimeInds (c : Ctx α β) : List ℕ → Py (List ℕ)
  | [] => .ok (List.range c.objects.length)
  | j :: js =>
    match c.nd.col j with
    | .error _ => .ok (List.range c.objects.length)
    | .ok r => do
      let r' ← andAll c.nd.col r js
      .ok (nonzero r')

/-- fca/context.py:465-466 `oclosure_inds`. (`list` of a set of small integers
`set(range(n))` is taken in increasing order.) -/
def oclosureInds (c : Ctx α β) (is : List ℕ) : Py (List ℕ) := do
  let js ← c.oprimeInds is
  c.aprimeInds js

/-- fca/context.py:468-469 `aclosure_inds`. -/
def aclosureInds (c : Ctx α β) (js : List ℕ) : Py (List ℕ) := do
  let is ← c.aprimeInds js
  c.oprimeInds is

/-- fca/context.py:471-474 `oprime`; the argument is the iteration order of the iterable. -/
def oprime (c : Ctx α β) (objs : List α) : Py (Finset β) := do
  let is ← objs.mapM (lastIdx c.objects)
  let js ← c.oprimeInds is
  let names ← js.mapM (pyGet c.attributes)
  .ok names.toFinset

/-- fca/context.py:476-479 `aprime`. -/
def aprime (c : Ctx α β) (atts : List β) : Py (Finset α) := do
  let js ← atts.mapM (lastIdx c.attributes)
  let is ← c.aprimeInds js
  let names ← is.mapM (pyGet c.objects)
  .ok names.toFinset

/-- fca/context.py:481-484 `oclosure`. -/
def oclosure (c : Ctx α β) (objs : List α) : Py (Finset α) := do
  let is ← objs.mapM (lastIdx c.objects)
  let ks ← c.oclosureInds is
  let names ← ks.mapM (pyGet c.objects)
  .ok names.toFinset

/-- fca/context.py:486-489 `aclosure`. -/
def aclosure (c : Ctx α β) (atts : List β) : Py (Finset β) := do
  let js ← atts.mapM (lastIdx c.attributes)
  let ks ← c.aclosureInds js
  let names ← ks.mapM (pyGet c.attributes)
  .ok names.toFinset

/-! #### closure_operators.py -/

/-- fca/algorithms/closure_operators.py:8-16 `oprime(objects, context)`. -/
def coOprime (c : Ctx α β) (objs : List α) : Py (Finset β) :=
  objs.foldlM (fun acc o => do
    let s ← c.objectIntent o
    .ok (acc ∩ s)) c.attributes.toFinset

/-- fca/algorithms/closure_operators.py:18-26 `aprime(attributes, context)`. -/
def coAprime (c : Ctx α β) (atts : List β) : Py (Finset α) :=
  atts.foldlM (fun acc a => do
    let s ← c.attributeExtent a
    .ok (acc ∩ s)) c.objects.toFinset

/-- fca/algorithms/closure_operators.py:28-30 `oclosure`, as a set (before `sorted`); `ord` is the
iteration order of the intermediate set. -/
def coOclosureSet (c : Ctx α β) (ord : SetOrder β) (objs : List α) : Py (Finset α) := do
  let s ← c.coOprime objs
  c.coAprime (ord.enum s)

/-- fca/algorithms/closure_operators.py:33-35 `aclosure`, as a set (before `sorted`). -/
def coAclosureSet (c : Ctx α β) (ord : SetOrder α) (atts : List β) : Py (Finset β) := do
  let s ← c.coAprime atts
  c.coOprime (ord.enum s)

/-- fca/algorithms/closure_operators.py:33-35 `aclosure`: `sorted(...)`. Names are assumed
mutually comparable (otherwise `sorted` raises TypeError). -/
def coAclosure [LinearOrder β] (c : Ctx α β) (ord : SetOrder α) (atts : List β) : Py (List β) := do
  let s ← c.coAclosureSet ord atts
  .ok (s.sort (· ≤ ·))

/-- fca/algorithms/closure_operators.py:28-30 `oclosure`: `sorted(...)`. -/
def coOclosure [LinearOrder α] (c : Ctx α β) (ord : SetOrder β) (objs : List α) : Py (List α) := do
  let s ← c.coOclosureSet ord objs
  .ok (s.sort (· ≤ ·))

/-! #### Specification view -/

/-- Object `o` has attribute `a`: read off the table at the positions of the names. -/
def Inc (c : Ctx α β) (o : α) (a : β) : Prop :=
  ∃ (i j : ℕ) (r : List Bool), c.objects[i]? = some o ∧ c.attributes[j]? = some a ∧
    c.nd.rows[i]? = some r ∧ r[j]? = some true

/-- Well-formed contexts: distinct names, a rectangular table with matching dimensions. The shape
of the array of an object-free context is left open. -/
structure WFw (c : Ctx α β) : Prop where
  onodup : c.objects.Nodup
  anodup : c.attributes.Nodup
  nrows : c.nd.rows.length = c.objects.length
  width : ∀ r ∈ c.nd.rows, r.length = c.attributes.length
  shape : c.nd.rows ≠ [] → c.nd.cols = some c.attributes.length

/-- As `WFw`, and an object-free table is one-dimensional or has the right number of columns. -/
structure WF (c : Ctx α β) : Prop extends WFw c where
  shape0 : c.nd.cols = none ∨ c.nd.cols = some c.attributes.length

end Ctx
