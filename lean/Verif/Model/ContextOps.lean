/-
Model of the remaining methods of fca/context.py (class Context): mutators, derived contexts,
comparison, multiplication, clarification and reduction.
-/
import Verif.Model.Context
import Mathlib.Data.List.Sort

/-- `d[k] = v` for a dict seen as its list of items: a known key keeps its position. -/
def dictSet {κ ν : Type} [DecidableEq κ] (d : List (κ × ν)) (k : κ) (v : ν) : List (κ × ν) :=
  if d.any fun p => p.1 = k then d.map fun p => if p.1 = k then (k, v) else p else d ++ [(k, v)]

/-- `dict(items)`: first position, last value of every key. -/
def dictOf {κ ν : Type} [DecidableEq κ] (items : List (κ × ν)) : List (κ × ν) :=
  items.foldl (fun d p => dictSet d p.1 p.2) []

/-- A comprehension `[i for i in l if p(i)]` with a condition that may raise. -/
def filterPy {γ : Type} (p : γ → Py Bool) : List γ → Py (List γ)
  | [] => .ok []
  | x :: l => do
    let b ← p x
    let r ← filterPy p l
    .ok (if b then x :: r else r)

namespace Nd

/-- `np.c_[t, col]` (fca/context.py:364). One-dimensional arguments become columns, so a
one-dimensional (empty) table and an empty column give an array of shape `(0, 2)`. -/
def appendCol (t : Nd) (col : List Bool) : Py Nd :=
  match t.cols with
  | none => if col = [] then .ok ⟨some 2, []⟩ else .error .valueError
  | some n =>
    if col.length = t.rows.length then .ok ⟨some (n + 1), List.zipWith (fun r b => r ++ [b]) t.rows col⟩
    else .error .valueError

/-- `np.vstack((t, [row]))` (fca/context.py:374), called for tables with at least one row. -/
def appendRow (t : Nd) (row : List Bool) : Py Nd :=
  match t.cols with
  | none => .error .valueError
  | some n => if row.length = n then .ok ⟨some n, t.rows ++ [row]⟩ else .error .valueError

/-- fca/context.py:373-376: `np.vstack` or `np.array([row])`. -/
def stackRow (t : Nd) (row : List Bool) : Py Nd :=
  if t.rows ≠ [] then t.appendRow row else ofLists [row]

/-- `np.delete(t, js, 1)` raises AxisError for a one-dimensional array and IndexError for a column
out of range (fca/context.py:412, 419). -/
def checkCols (t : Nd) (js : List ℕ) : Py Unit :=
  match t.cols with
  | none => .error .axisError
  | some n => if js.all (· < n) then .ok () else .error .indexError

/-- `np.matrix(t)` (fca/context.py:699-700): number of rows, number of columns, rows. A
one-dimensional array becomes a single row. -/
def toMatrix (t : Nd) : ℕ × ℕ × List (List Bool) :=
  match t.cols with
  | none => (1, 0, [[]])
  | some n => (t.rows.length, n, t.rows)

end Nd

namespace Ctx

variable {α β : Type} [DecidableEq α] [DecidableEq β]

/-- Result of a mutating method: the object afterwards and the exception, if one was raised. -/
abbrev Mut (α β : Type) := Ctx α β × Option PyErr

/-- `self.__init__(...)` in a mutator: when the constructor raises, `self` stays `c`. -/
def reinit (c : Ctx α β) : Py (Ctx α β) → Mut α β
  | .ok c' => (c', none)
  | .error e => (c, some e)

section mutators
variable [PyName α] [PyName β]

/-- fca/context.py:361-366 `add_attribute`. -/
def addAttribute (c : Ctx α β) (col : List Bool) (name : β) : Mut α β :=
  c.reinit do
    let t ← c.nd.appendCol col
    ofNd t c.objects (c.attributes ++ [name])

/-- fca/context.py:368-378 `add_object`. -/
def addObject (c : Ctx α β) (row : List Bool) (name : α) : Mut α β :=
  c.reinit do
    let t ← c.nd.stackRow row
    ofNd t (c.objects ++ [name]) c.attributes

/-- fca/context.py:380-382 `add_object_with_intent`. -/
def addObjectWithIntent (c : Ctx α β) (intent : Finset β) (name : α) : Mut α β :=
  c.addObject (c.attributes.map fun a => decide (a ∈ intent)) name

/-- fca/context.py:384-386 `add_attribute_with_extent`. -/
def addAttributeWithExtent (c : Ctx α β) (extent : Finset α) (name : β) : Mut α β :=
  c.addAttribute (c.objects.map fun o => decide (o ∈ extent)) name

/-- fca/context.py:389-391, 397-399: `[False]*n` with `True` at the given positions. -/
def flags (n : ℕ) (is : List ℕ) : List Bool := is.foldl (fun l i => l.set i true) (List.replicate n false)

/-- fca/context.py:388-394 `set_attribute_extent`; `extent` is the iteration order of the
argument. The array is written in place before `__init__` runs; `__init__` cannot fail then, as
the dimensions are unchanged. -/
def setAttributeExtent (c : Ctx α β) (extent : List α) (name : β) : Mut α β :=
  c.reinit do
    let is ← extent.mapM (lastIdx c.objects)
    let col := flags c.objects.length is
    let j ← lastIdx c.attributes name
    let _ ← c.nd.col j
    make (List.zipWith (fun r b => r.set j b) c.nd.rows col) c.objects c.attributes

/-- fca/context.py:396-401 `set_object_intent`. -/
def setObjectIntent (c : Ctx α β) (intent : List β) (name : α) : Mut α β :=
  c.reinit do
    let js ← intent.mapM (lastIdx c.attributes)
    let row := flags c.attributes.length js
    let i ← lastIdx c.objects name
    let _ ← c.nd.row i
    ofNd ⟨c.nd.cols, c.nd.rows.set i row⟩ c.objects c.attributes

/-- fca/context.py:403-408 `delete_object`. -/
def deleteObject (c : Ctx α β) (name : α) : Mut α β :=
  c.reinit do
    let i ← lastIdx c.objects name
    let _ ← c.nd.row i
    make (c.nd.rows.eraseIdx i) (c.objects.eraseIdx i) c.attributes

/-- fca/context.py:410-415 `delete_attribute`; `np.delete(_, _, 1)` of a one-dimensional array
raises AxisError. -/
def deleteAttribute (c : Ctx α β) (name : β) : Mut α β :=
  c.reinit do
    let j ← lastIdx c.attributes name
    c.nd.checkCols [j]
    make (c.nd.rows.map fun r => r.eraseIdx j) c.objects (c.attributes.eraseIdx j)

/-- `del l[i]` for the positions `is` in this order. -/
def delAll {γ : Type} (l : List γ) : List ℕ → Py (List γ)
  | [] => .ok l
  | i :: is => if i < l.length then delAll (l.eraseIdx i) is else .error .indexError

/-- fca/context.py:417-423 `delete_attributes`. `np.delete` removes every listed column once; the
loop deletes the names from the last to the first position, once per *listed* index. When it raises
the name list has already been changed in place (this state is not followed: `c` is returned). -/
def deleteAttributes (c : Ctx α β) (names : List β) : Mut α β :=
  c.reinit do
    let js ← names.mapM (lastIdx c.attributes)
    c.nd.checkCols js
    let rows := c.nd.rows.map fun r =>
      ((List.range r.length).filter (· ∉ js)).map fun k => r.getD k false
    let atts ← delAll c.attributes (js.insertionSort (· ≥ ·))
    make rows c.objects atts

/-- fca/context.py:425-427 `rename_object`. -/
def renameObject (c : Ctx α β) (old name : α) : Mut α β :=
  c.reinit do
    let i ← lastIdx c.objects old
    ofNd c.nd (c.objects.set i name) c.attributes

/-- fca/context.py:429-431 `rename_attribute`. -/
def renameAttribute (c : Ctx α β) (old name : β) : Mut α β :=
  c.reinit do
    let j ← lastIdx c.attributes old
    ofNd c.nd c.objects (c.attributes.set j name)

/-- fca/context.py:568-569: the deletion loop of `remove_empty_objects`. -/
def deleteObjects (c : Ctx α β) : List α → Mut α β
  | [] => (c, none)
  | o :: os =>
    match c.deleteObject o with
    | (c', none) => c'.deleteObjects os
    | (c', some e) => (c', some e)

/-- fca/context.py:562-570 `remove_empty_objects` (first the names, then the deletions). -/
def removeEmptyObjects (c : Ctx α β) : Mut α β :=
  match (do
      let is ← filterPy (fun i => do
        let r ← pyGet c.nd.rows i
        .ok (!r.any id)) (List.range c.objects.length)
      is.mapM (pyGet c.objects)) with
  | .ok names => c.deleteObjects names
  | .error e => (c, some e)

/-- fca/context.py:263-266 `__deepcopy__`. -/
def deepcopy (c : Ctx α β) : Py (Ctx α β) := ofNd c.nd c.objects c.attributes

end mutators

section derived
variable [PyName α] [PyName β]

/-- fca/context.py:527-537 `transpose`. -/
def transpose (c : Ctx α β) : Py (Ctx β α) := do
  let table ← (List.range c.attributes.length).mapM fun j =>
    (List.range c.objects.length).mapM fun i => c.nd.cell i j
  make table c.attributes c.objects

/-- fca/context.py:644-649 `_check_attribute_names`. -/
def checkNames (c : Ctx α β) (names : List β) : Py Unit :=
  if names.toFinset ⊆ c.attributes.toFinset then .ok () else .error .valueError

/-- fca/context.py:572-582 `_extract_subtable`. -/
def extractSubtable (c : Ctx α β) (names : List β) : Py (List (List Bool)) := do
  c.checkNames names
  let js ← names.mapM (firstIdx c.attributes)
  (List.range c.nd.rows.length).mapM fun i => js.mapM fun j => c.nd.cell i j

/-- fca/context.py:549-553 `extract_subcontext`. -/
def extractSubcontext (c : Ctx α β) (names : List β) : Py (Ctx α β) := do
  let table ← c.extractSubtable names
  make table c.objects names

/-- The `mode` argument (a string). -/
inductive Mode | and | or | other
  deriving DecidableEq

/-- fca/context.py:614-627 `_has_values`, all values being `True`. -/
def hasValues (c : Ctx α β) (i : ℕ) : List β → Py Bool
  | [] => .ok true
  | a :: as => do
    let j ← firstIdx c.attributes a
    let b ← c.nd.cell i j
    if b then c.hasValues i as else .ok false

/-- fca/context.py:629-642 `_has_at_least_one_value`, all values being `True`. -/
def hasOneValue (c : Ctx α β) (i : ℕ) : List β → Py Bool
  | [] => .ok false
  | a :: as => do
    let j ← firstIdx c.attributes a
    let b ← c.nd.cell i j
    if b then .ok true else c.hasOneValue i as

/-- fca/context.py:607-610: the indices selected by `mode`; an unknown mode leaves `indices`
unbound. -/
def filteredInds (c : Ctx α β) (keys : List β) : Mode → Py (List ℕ)
  | .and => filterPy (fun i => c.hasValues i keys) (List.range c.nd.rows.length)
  | .or => filterPy (fun i => c.hasOneValue i keys) (List.range c.nd.rows.length)
  | .other => .error .unboundLocalError

/-- fca/context.py:539-547 `extract_subcontext_filtered_by_attributes` and 597-612
`_extract_subtable_by_attribute_values`. The dict of values has every name once, in the order of
first occurrence. -/
def extractFiltered (c : Ctx α β) (names : List β) (mode : Mode) : Py (Ctx α β) := do
  let keys := (dictOf (names.map fun a => (a, ()))).map Prod.fst
  c.checkNames keys
  let is ← c.filteredInds keys mode
  let objs ← is.mapM (pyGet c.objects)
  let table ← is.mapM (pyGet c.nd.rows)
  make table objs c.attributes

/-- Product of boolean matrices. -/
def boolMul (l r : List (List Bool)) (m : ℕ) : List (List Bool) :=
  l.map fun row => (List.range m).map fun k =>
    (List.zipWith (fun b r' => b && r'.getD k false) row r).any id

/-- fca/context.py:694-701 `__mul__`. -/
def mul {γ : Type} [DecidableEq γ] [PyName γ] (l : Ctx α β) (r : Ctx β γ) : Py (Ctx α γ) :=
  if l.attributes ≠ r.objects then .error .multiplicationException
  else
    let (_, n, lrows) := l.nd.toMatrix
    let (k, m, rrows) := r.nd.toMatrix
    if n ≠ k then .error .valueError
    else make (boolMul lrows rrows m) l.objects r.attributes

/-- fca/context.py:703-715 `clarify_objects`. -/
def clarifyObjects (c : Ctx α β) : Py (Ctx α β) :=
  let d := dictOf (c.nd.rows.zip c.objects)
  make (d.map Prod.fst) (d.map Prod.snd) c.attributes

/-- fca/context.py:765-778 `complementary`; `neg m` is `'not ' + m`. -/
def complementary (neg : β → β) (c : Ctx α β) : Py (Ctx α β) := do
  let table ← (List.range c.objects.length).mapM fun i =>
    (List.range c.attributes.length).mapM fun j => do
      let b ← c.nd.cell i j
      .ok (!b)
  make table c.objects (c.attributes.map neg)

/-- fca/context.py:780-792 `compound`; `+` of two boolean arrays is the elementwise `or`. -/
def compound (neg : β → β) (c : Ctx α β) : Py (Ctx α β) := do
  let d ← c.complementary neg
  let table ← (List.range c.objects.length).mapM fun i => do
    let r ← pyGet c.nd.rows i
    let s ← pyGet d.nd.rows i
    .ok (List.zipWith (· || ·) r s)
  make table c.objects (c.attributes ++ d.attributes)

end derived

/-! #### `__repr__` and `__eq__` -/

/-- `sep.join(parts)` -/
def joinC (sep : List Char) : List (List Char) → List Char
  | [] => []
  | [x] => x
  | x :: xs => x ++ sep ++ joinC sep xs

/-- fca/context.py:663-670 `__repr__`; `strO`, `strA` are `str` on objects and attributes. -/
def repr (strO : α → List Char) (strA : β → List Char) (c : Ctx α β) : Py (List Char) := do
  let lines ← (List.range c.objects.length).mapM fun i => do
    let o ← pyGet c.objects i
    let r ← pyGet c.nd.rows i
    .ok (strO o ++ ['\t'] ++ r.map (fun b => if b then 'X' else '.') ++ ['\n'])
  .ok (joinC [',', ' '] (c.attributes.map strA) ++ ['\n'] ++ lines.flatten)

/-- fca/context.py:672-692 `__eq__` of two contexts. -/
def eq (strO : α → List Char) (strA : β → List Char) (c d : Ctx α β) : Py Bool := do
  let rc ← c.repr strO strA
  let rd ← d.repr strO strA
  if rc = rd then .ok true
  else if c.objects.length ≠ d.objects.length ∨ c.attributes.length ≠ d.attributes.length then
    .ok false
  else if c.objects.toFinset ≠ d.objects.toFinset ∨ c.attributes.toFinset ≠ d.attributes.toFinset then
    .ok false
  else do
    let is ← c.objects.mapM (firstIdx d.objects)
    let js ← c.attributes.mapM (firstIdx d.attributes)
    let table ← is.mapM fun i => js.mapM fun j => d.nd.cell i j
    .ok (decide (table = c.nd.rows))

/-! #### Reduction -/

/-- fca/context.py:795-801 `list2int` on unbounded integers; see `list2int64` for the arithmetic
numpy uses. -/
def list2int (l : List Bool) : ℕ := l.foldr (fun b x => 2 * x + b.toNat) 0

/-- fca/context.py:795-801 `list2int` as executed: the entries are `np.bool_`, so the accumulator is
an `np.int64` after the first step and wraps around modulo `2^64`. -/
def list2int64 (l : List Bool) : BitVec 64 := l.foldr (fun b x => (x <<< 1) + (if b then 1 else 0)) 0

/-- fca/context.py:738-749: the inner loop of `reduce_objects` for the key `k`; state: `current` and
`reducible`. -/
def reduceInner (k : ℕ) (rest : List ℕ) (st : ℕ × Finset ℕ) : ℕ × Finset ℕ :=
  rest.foldl (fun (st : ℕ × Finset ℕ) j =>
    if j ∈ st.2 then st
    else
      let new := st.1 &&& j
      if new &&& k < k then st
      else if new = k then (st.1, insert k st.2)
      else if new > k then (new, st.2)
      else st) st

/-- fca/context.py:734-749: the outer loop of `reduce_objects`; note that line 735 looks for the
*position* `i` in the set of *codes*. -/
def reduceOuter (M : ℕ) (keys : List ℕ) : Finset ℕ :=
  (List.range keys.length).foldl (fun red i =>
    if i ∈ red then red
    else (reduceInner (keys.getD i 0) (keys.take i ++ keys.drop (i + 1)) (M, red)).2) ∅

/-- fca/context.py:717-755 `reduce_objects`, with unbounded row codes (valid up to 63 attributes;
`list2int64` agrees with `list2int` there). -/
def reduceObjects [PyName α] [PyName β] (c : Ctx α β) : Py (Ctx α β) := do
  let d := dictOf ((c.nd.rows.map list2int).zip (List.range c.nd.rows.length))
  let keys := d.map Prod.fst
  let red := reduceOuter (2 ^ c.attributes.length - 1) keys
  let order := ((d.filter fun p => p.1 ∉ red).map Prod.snd).insertionSort (· ≤ ·)
  let objs ← order.mapM (pyGet c.objects)
  let table ← order.mapM (pyGet c.nd.rows)
  make table objs c.attributes

/-- fca/context.py:757-763 `reduce_attributes`. -/
def reduceAttributes [PyName α] [PyName β] (c : Ctx α β) : Py (Ctx α β) := do
  let t ← c.transpose
  let r ← t.reduceObjects
  r.transpose

/-! #### Associative closures -/

/-- `Counter(l)`: value and number of occurrences, in the order of first occurrence. -/
def counter (l : List ℕ) : List (ℕ × ℕ) :=
  (dictOf (l.map fun x => (x, ()))).map fun p => (p.1, l.count p.1)

/-- fca/context.py:507-515 `associative_oprime_inds`. -/
def associativeOprimeInds (c : Ctx α β) (is : List ℕ) : Py (List (ℕ × ℕ)) :=
  if is.length = 0 then .ok ((List.range c.attributes.length).map fun j => (j, 0))
  else do
    let rows ← is.mapM c.nd.row
    .ok (counter (rows.flatMap nonzero))

/-- fca/context.py:517-525 `associative_aprime_inds`. -/
def associativeAprimeInds (c : Ctx α β) (js : List ℕ) : Py (List (ℕ × ℕ)) :=
  if js.length = 0 then .ok ((List.range c.objects.length).map fun i => (i, 0))
  else do
    let cols ← js.mapM c.nd.col
    .ok (counter (cols.flatMap nonzero))

/-- fca/context.py:491-498 `associative_aclosure`. -/
def associativeAclosure (c : Ctx α β) (atts : List β) : Py (List (β × ℕ) × ℕ) := do
  let js ← atts.mapM (lastIdx c.attributes)
  let is ← c.aprimeInds js
  let d ← c.associativeOprimeInds is
  let items ← d.mapM fun p => do
    let a ← pyGet c.attributes p.1
    .ok (a, p.2)
  .ok (dictOf items, is.length)

/-- fca/context.py:500-505 `associative_aprime`. -/
def associativeAprime (c : Ctx α β) (atts : List β) : Py (List (α × ℕ)) := do
  let js ← atts.mapM (lastIdx c.attributes)
  let d ← c.associativeAprimeInds js
  let items ← d.mapM fun p => do
    let o ← pyGet c.objects p.1
    .ok (o, p.2)
  .ok (dictOf items)

end Ctx
