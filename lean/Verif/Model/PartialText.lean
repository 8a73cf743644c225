/-
Model of `__repr__`, `_intent_to_str` and `__deepcopy__` of fca/partial_context.py.
-/
import Verif.Model.PartialContext

/-- fca/compare_context.py:4-28 `subseteq_table` for two numpy tables. Line 21 takes the first row, which raises
IndexError for tables without rows; with a cell, line 25 indexes an array with the float `0.0`, which raises
IndexError. -/
def subseteqNd (l r : Nd) : Py Bool :=
  if l.rows.length ≠ r.rows.length then .error .valueError
  else match l.rows, r.rows with
    | [], _ => .error .indexError
    | _, [] => .error .valueError
    | l0 :: _, r0 :: _ =>
      if l0.length ≠ r0.length then .error .valueError
      else if l.rows.length * l0.length = 0 then .ok true
      else .error .indexError

namespace PCtx

variable {α β : Type} [DecidableEq α] [DecidableEq β]

/-- fca/partial_context.py:68-77 `_intent_to_str`. -/
def intentToStr (p : PCtx α β) (xi qi : Finset β) : List Char :=
  p.attributes.map fun a => if a ∈ xi then 'X' else if a ∈ qi then '?' else '.'

/-- fca/partial_context.py:59-66 `__repr__`; `strO`, `strA` are `str` on objects and attributes. -/
def repr (strO : α → List Char) (strA : β → List Char) (p : PCtx α β) : Py (List Char) := do
  let lines ← p.objects.mapM fun o => do
    let xi ← p.x.objectIntent o
    let qi ← p.q.objectIntent o
    .ok ('\n' :: p.intentToStr xi qi)
  .ok (Ctx.joinC [',', ' '] (p.attributes.map strA) ++ ['\n'] ++
    (Ctx.joinC [',', ' '] (p.objects.map strO) ++ ['\n'] ++ lines.flatten))

/-- fca/partial_context.py:37-41 `__deepcopy__`, with the constructor (16-35) on numpy tables. -/
def deepcopy [PyName α] [PyName β] (p : PCtx α β) : Py (PCtx α β) := do
  let b ← subseteqNd p.x.nd p.q.nd
  if b then
    let x ← Ctx.ofNd p.x.nd p.objects p.attributes
    let q ← Ctx.ofNd p.q.nd p.objects p.attributes
    .ok ⟨p.objects, p.attributes, x, q⟩
  else .error .valueError

end PCtx
