/-
Model of `minimize(db.base)`: the accepted implications of an `ExplorationDB` as objects.
-/
import Verif.Model.ExplorationDB
import Verif.Model.CoverObjects

namespace EDB

variable {α β : Type} [DecidableEq α] [DecidableEq β]

/-- An `ExplorationDB` whose list `_implications` holds the objects `base` (fca/algorithms/exploration_/exploration.py:53);
`h` has their values. -/
def ofObjs (h : Cover.ImpHeap β) (base : List ℕ) (c : Ctx α β) (openImps : List (Imp β)) : EDB α β :=
  ⟨c, base.map h, openImps⟩

/-- `minimize(db.base)`: `get_base` (fca/algorithms/exploration_/exploration.py:138-139) returns a copy of the list, and
`minimize` (fca/algorithms/implication_covers.py:144-158) changes this copy and the implication objects, which the list
of the database holds too. The open implications are not computed again. -/
def minimizeBase (h : Cover.ImpHeap β) (base : List ℕ) (c : Ctx α β) (openImps : List (Imp β)) :
    Py (Cover.ImpHeap β × EDB α β) := do
  let r ← Cover.minimizeObj h base
  .ok (r.1, ofObjs r.1 base c openImps)

end EDB
