/-
Several `ExplorationDB`s (fca/algorithms/exploration_/exploration.py) that were given the same context object.
-/
import Verif.Model.ExplorationDB

/-- fca/algorithms/exploration_/exploration.py:50-60: the constructor stores the context and the list of implications
it is given, without copying. A store of databases on one context: `lists` are the list objects used as background,
`opens` the open implications of the databases. -/
structure DBs (α β : Type) where
  ctx : Ctx α β
  lists : ℕ → List (Imp β)
  opens : ℕ → List (Imp β)

namespace DBs

variable {α β : Type} [DecidableEq α] [DecidableEq β]

/-- Database number `k`, whose background is the list object number `own k`. -/
def view (own : ℕ → ℕ) (D : DBs α β) (k : ℕ) : EDB α β := ⟨D.ctx, D.lists (own k), D.opens k⟩

variable [PyName α] [PyName β]

/-- A call of database number `k`: context and list are changed in place (fca/algorithms/exploration_/exploration.py:68-133),
the open implications are an attribute of the database. -/
def exec (E : ℕ → EDB.Env α β) (own : ℕ → ℕ) (D : DBs α β) (k : ℕ) (op : EDB.Op α β) : DBs α β × Option PyErr :=
  let r := (D.view own k).exec (E k) op
  (⟨r.1.ctx, Function.update D.lists (own k) r.1.bg, Function.update D.opens k r.1.openImps⟩, r.2)

/-- A history of calls of several databases; calls that raise are caught. -/
def run (E : ℕ → EDB.Env α β) (own : ℕ → ℕ) (D : DBs α β) (ops : List (ℕ × EDB.Op α β)) : DBs α β :=
  ops.foldl (fun D x => (D.exec E own x.1 x.2).1) D

end DBs
