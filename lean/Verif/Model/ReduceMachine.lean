/-
`reduce_objects` with the machine integers numpy computes with (fca/context.py:717-755, 795-801).
-/
import Verif.Model.ContextOps

namespace Ctx

variable {α β : Type} [DecidableEq α] [DecidableEq β]

/-- fca/context.py:738-749: the inner loop for the key `k`. `band current j` is `current & j` of a Python integer or
`np.int64` and an `np.int64`; it may raise for integers that do not fit. -/
def reduceInnerZ (band : ℤ → ℤ → Py ℤ) (k : ℤ) (rest : List ℤ) (st : ℤ × Finset ℤ) : Py (ℤ × Finset ℤ) :=
  rest.foldlM (fun (st : ℤ × Finset ℤ) j =>
    if j ∈ st.2 then .ok st
    else do
      let new ← band st.1 j
      let x ← band new k
      if x < k then .ok st
      else if new = k then .ok (st.1, insert k st.2)
      else if new > k then .ok (new, st.2)
      else .ok st) st

/-- fca/context.py:734-749: the outer loop. -/
def reduceOuterZ (band : ℤ → ℤ → Py ℤ) (M : ℤ) (keys : List ℤ) : Py (Finset ℤ) :=
  (List.range keys.length).foldlM (fun (red : Finset ℤ) (i : ℕ) =>
    if (i : ℤ) ∈ red then .ok red
    else do
      let st ← reduceInnerZ band (keys.getD i 0) (keys.take i ++ keys.drop (i + 1)) (M, red)
      .ok st.2) ∅

/-- fca/context.py:717-755 `reduce_objects`, with the codes of `list2int` as they are computed. -/
def reduceObjectsZ [PyName α] [PyName β] (band : ℤ → ℤ → Py ℤ) (c : Ctx α β) : Py (Ctx α β) := do
  let d := dictOf ((c.nd.rows.map fun r => (list2int64 r).toInt).zip (List.range c.nd.rows.length))
  let red ← reduceOuterZ band (2 ^ c.attributes.length - 1) (d.map Prod.fst)
  let order := ((d.filter fun p => p.1 ∉ red).map Prod.snd).insertionSort (· ≤ ·)
  let objs ← order.mapM (pyGet c.objects)
  let table ← order.mapM (pyGet c.nd.rows)
  make table objs c.attributes

/-- fca/context.py:757-763 `reduce_attributes`. -/
def reduceAttributesZ [PyName α] [PyName β] (band : ℤ → ℤ → Py ℤ) (c : Ctx α β) : Py (Ctx α β) := do
  let t ← c.transpose
  let r ← t.reduceObjectsZ band
  r.transpose

end Ctx
