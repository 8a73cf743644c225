/-
Model of `minimize` (fca/algorithms/implication_covers.py) with implications as objects: a list holds addresses, and the
assignment to `_premise` changes the object for every list that holds it.
-/
import Verif.Model.Covers

variable {β : Type} [DecidableEq β]

namespace Cover

/-- The state of the implication objects; an address stands for the identity of an object. -/
abbrev ImpHeap (β : Type) := ℕ → Imp β

/-- `list.remove` (fca/algorithms/implication_covers.py:154) on a list of objects: the first one equal to `a`, by
`Implication.__eq__`, is removed. -/
def removeObj (h : ImpHeap β) (a : ℕ) (l : List ℕ) : Py (List ℕ) :=
  if l.any (fun x => (h x).pyEq (h a)) then .ok (l.eraseP fun x => (h x).pyEq (h a)) else .error .valueError

/-- fca/algorithms/implication_covers.py:151-158, the loop of `minimize(cover)`; the first argument is the rest of the
copy `cover[:]`, the result the objects and the list `cover` afterwards. -/
def minimizeObjLoop : List ℕ → ImpHeap β → List ℕ → Py (ImpHeap β × List ℕ)
  | [], h, cover => .ok (h, cover)
  | a :: rest, h, cover => do
    let cover' ← removeObj h a cover
    let imp' : Imp β := ⟨simpleClosure (h a).premise (cover'.map h), (h a).conclusion⟩
    let h' : ImpHeap β := Function.update h a imp'
    minimizeObjLoop rest h' (if imp'.reduced ⊆ imp'.premise then cover' else cover' ++ [a])

/-- fca/algorithms/implication_covers.py:144-158 `minimize(cover)` for a list of objects. -/
def minimizeObj (h : ImpHeap β) (cover : List ℕ) : Py (ImpHeap β × List ℕ) := minimizeObjLoop cover h cover

end Cover
