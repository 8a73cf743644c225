/-
Methods of contexts that take positions: integers, also negative or out of range (fca/context.py).
-/
import Verif.Model.Context

/-- A numpy index into an axis of length `n`: negative positions count from the end. -/
def npIndex (n : ℕ) (i : ℤ) : Py ℕ :=
  if 0 ≤ i ∧ i < n then .ok i.toNat
  else if i < 0 ∧ 0 ≤ i + n then .ok (i + n).toNat
  else .error .indexError

namespace Nd

/-- `t[i, :]` for any integer. -/
def rowZ (t : Nd) (i : ℤ) : Py (List Bool) :=
  match t.cols with
  | none => .error .indexError
  | some _ => do
    let k ← npIndex t.rows.length i
    pyGet t.rows k

/-- `t[:, j]` for any integer. -/
def colZ (t : Nd) (j : ℤ) : Py (List Bool) :=
  match t.cols with
  | none => .error .indexError
  | some n => do
    let k ← npIndex n j
    .ok (t.rows.map fun r => r.getD k false)

end Nd

namespace Ctx

variable {α β : Type} [DecidableEq α] [DecidableEq β]

/-- fca/context.py:330-337 `get_object_intent_by_index`. -/
def intentByIndexZ (c : Ctx α β) (i : ℤ) : Py (Finset β) := do
  let r ← c.nd.rowZ i
  let names ← (nonzero r).mapM (pyGet c.attributes)
  .ok names.toFinset

/-- fca/context.py:343-350 `get_attribute_extent_by_index`. -/
def extentByIndexZ (c : Ctx α β) (j : ℤ) : Py (Finset α) := do
  let r ← c.nd.colZ j
  let names ← (nonzero r).mapM (pyGet c.objects)
  .ok names.toFinset

/-- fca/context.py:433-447 `oprime_inds`: only the access to the first position is guarded (lines 440-443). The answer
is a set or an array of positions. -/
def oprimeIndsZ (c : Ctx α β) : List ℤ → Py (List ℕ)
  | [] => .ok (List.range c.attributes.length)
  | i :: is =>
    match c.nd.rowZ i with
    | .error .indexError => .ok (List.range c.attributes.length)
    | .error e => .error e
    | .ok r => do
      let r' ← is.foldlM (fun acc k => do
        let q ← c.nd.rowZ k
        .ok (List.zipWith (· && ·) acc q)) r
      .ok (nonzero r')

/-- fca/context.py:449-463 `aprime_inds`. -/
def aprimeIndsZ (c : Ctx α β) : List ℤ → Py (List ℕ)
  | [] => .ok (List.range c.objects.length)
  | j :: js =>
    match c.nd.colZ j with
    | .error .indexError => .ok (List.range c.objects.length)
    | .error e => .error e
    | .ok r => do
      let r' ← js.foldlM (fun acc k => do
        let q ← c.nd.colZ k
        .ok (List.zipWith (· && ·) acc q)) r
      .ok (nonzero r')

/-- fca/context.py:465-466 `oclosure_inds`. -/
def oclosureIndsZ (c : Ctx α β) (is : List ℤ) : Py (List ℕ) := do
  let js ← c.oprimeIndsZ is
  c.aprimeIndsZ (js.map Int.ofNat)

/-- fca/context.py:468-469 `aclosure_inds`. -/
def aclosureIndsZ (c : Ctx α β) (js : List ℤ) : Py (List ℕ) := do
  let is ← c.aprimeIndsZ js
  c.oprimeIndsZ (is.map Int.ofNat)

end Ctx
