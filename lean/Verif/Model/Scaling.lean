/-
Model of fca/algorithms/scaling.py, fca/scale.py and of the constructor of fca/mvcontext.py.
-/
import Verif.Model.ContextOps
import Mathlib.Data.Int.Interval

section mv

variable {α β V : Type} [DecidableEq α] [DecidableEq β]

/-- fca/mvcontext.py:46-56 `ManyValuedContext(table, objects, attributes)`: the constructor of `Context`, which stores
`np.array(table, dtype=bool)` (fca/context.py:245); `truth v` is the truth value of `v`. Indexing reads
`cross_table`, the same array as lists (fca/mvcontext.py:79-82, 118-122). -/
def mvMake [PyName α] [PyName β] (truth : V → Bool) (table : List (List V)) (objs : List α) (atts : List β) :
    Py (Ctx α β) :=
  Ctx.make (table.map fun r => r.map truth) objs atts

end mv

section scaling

variable {α β ω V : Type} [DecidableEq α] [DecidableEq β] [DecidableEq ω]

/-- fca/algorithms/scaling.py:46-55: the body of the loop over the objects, for one row of the scale. `get obj` is
`mvcontext[obj][attr_index]`, `holds` the conversion of the value and the evaluation of the row's condition (it does
not modify anything), `cross` is `scale[row][col]`. -/
def scaleObj (get : ℕ → Py V) (holds : V → Py Bool) (cross : Py Bool) (d : List Bool) (obj : ℕ) : Py (List Bool) :=
  if d.getD obj false then .ok d
  else do
    let v ← get obj
    let b ← holds v
    if b then
      let x ← cross
      .ok (d.set obj x)
    else .ok d

/-- fca/algorithms/scaling.py:44-55: the new column `derived_attr` for column `col` of the scale. -/
def scaleCol (n : ℕ) (get : ℕ → Py V) (holds : ω → V → Py Bool) (scale : Ctx ω β) (col : ℕ) : Py (List Bool) :=
  (List.range scale.objects.length).foldlM (fun d row => do
    let w ← pyGet scale.objects row
    (List.range n).foldlM (scaleObj get (holds w) (scale.getItem row col)) d) (List.replicate n false)

/-- fca/algorithms/scaling.py:44-58: one new attribute. -/
def scaleAttr [PyName α] [PyName β] (join : β → β → β) (n : ℕ) (get : ℕ → Py V) (holds : ω → V → Py Bool)
    (scale : Ctx ω β) (m : β) (c : Ctx α β) (col : ℕ) : Py (Ctx α β) := do
  let d ← scaleCol n get holds scale col
  let a ← pyGet scale.attributes col
  match c.addAttribute d (join m a) with
  | (c', none) => .ok c'
  | (_, some e) => .error e

/-- fca/algorithms/scaling.py:6-59 `scale_mvcontext(mvcontext, scales)` for a many-valued context with the given names and
rows of values; `join x y` is `":".join([x, y])`. -/
def scaleMv [PyName α] [PyName β] (join : β → β → β) (holds : ω → V → Py Bool) (objs : List α) (atts : List β)
    (rows : List (List V)) (scales : List (Ctx ω β)) : Py (Ctx α β) := do
  let c ← Ctx.make (objs.map fun _ => []) objs []
  (List.range atts.length).foldlM (fun c k => do
    let scale ← pyGet scales k
    (List.range scale.attributes.length).foldlM (fun c col => do
      let m ← pyGet atts k
      scaleAttr join objs.length (fun obj => do let r ← pyGet rows obj; pyGet r k) holds scale m c col) c) c

end scaling

section scales

/-- fca/scale.py:24-28 `Scale(context)`. -/
def scaleMake {α β : Type} [DecidableEq α] [DecidableEq β] [PyName α] [PyName β] (c : Ctx α β) : Py (Ctx α β) :=
  Ctx.ofNd c.nd c.objects c.attributes

/-- fca/scale.py:62 `list(range(min_, max_ + 1))`. -/
def intRange (mn mx : ℤ) : List ℤ := (List.range (mx + 1 - mn).toNat).map fun i : ℕ => mn + (i : ℤ)

/-- fca/scale.py:57-73 `OrdinalScale(min_, max_, mode)`; an object `value == v` is given by `v`, an attribute `<= v` or
`>= v` by `v` (formatting of integers is injective). `geq` is `mode == "geq"`. -/
def ordinalScale [PyName ℤ] (mn mx : ℤ) (geq : Bool) : Py (Ctx ℤ ℤ) := do
  let values := intRange mn mx
  let atts := if geq then values.tail else values.dropLast
  let table := (List.range values.length).map fun i =>
    if geq then List.replicate i true ++ List.replicate (atts.length - i) false
    else List.replicate i false ++ List.replicate (atts.length - i) true
  let c ← Ctx.make table values atts
  scaleMake c

/-- fca/scale.py:31-54 `NominalScale(attribute, mvcontext)`; `column` is the column of the attribute after `foo`
(numbers as floats, other values quoted), `ord` the order of `list(set(...))`. Objects `value == v` and
attributes `str(v)` are given by `v` (assumed to be formatted differently for different values). -/
def nominalScale {W : Type} [DecidableEq W] [PyName W] (ord : SetOrder W) (column : List W) : Py (Ctx W W) := do
  let values := ord.enum column.toFinset
  let table := (List.range values.length).map fun i => (List.replicate values.length false).set i true
  let c ← Ctx.make table values values
  scaleMake c

end scales
