/-
Model of fca/algorithms/exploration2/exploration.py.
-/
import Verif.Model.ExplorationDB

/-- fca/algorithms/exploration2/exploration.py:19-22, 52-59, 76-83, 105-115: one `Exploration` and the sessions created
from it so far, in order of creation. All of them share one `ExplorationContext` and thus one context `ctx`; a session is
given by the background implications of its `Basis`. The basis the `ExplorationContext` checks against (`_basis`) is
the one of the session created last. -/
structure E2 (α β : Type) where
  ctx : Ctx α β
  sessions : List (List (Imp β))

namespace E2

variable {α β : Type} [DecidableEq α] [DecidableEq β]

/-- fca/algorithms/exploration2/exploration.py:114-115, 80-83 `create_session`: `set_basis` replaces the basis of the
shared `ExplorationContext`. -/
def create (s : E2 α β) : E2 α β := { s with sessions := s.sessions ++ [[]] }

/-- fca/algorithms/exploration2/exploration.py:93-94, 61-62 `get_candidates` of session `k` (IndexError: there is no
such session). -/
def candidates (E : EDB.Env α β) (s : E2 α β) (k : ℕ) : Py (List (Imp β)) :=
  match s.sessions[k]? with
  | none => .error .indexError
  | some bg => s.ctx.computeDgBasis E.ordA E.ordO E.ord₀ E.ord bg (fun _ => true)

/-- fca/algorithms/exploration2/exploration.py:96-97, 67-68 `accept_implication` in session `k`. -/
def accept (s : E2 α β) (k : ℕ) (imp : Imp β) : E2 α β × Option PyErr :=
  match s.sessions[k]? with
  | none => (s, some .indexError)
  | some bg => ({ s with sessions := s.sessions.set k (bg ++ [imp]) }, none)

variable [PyName α] [PyName β]

/-- fca/algorithms/exploration2/exploration.py:46-50, 70-74 `ExplorationContext.add_object` (`intent` is a `set`);
before the first session `_basis` is `None`. -/
def addObject (s : E2 α β) (obj : α) (intent : Finset β) : E2 α β × Option PyErr :=
  match s.sessions.getLast? with
  | none => (s, some .attributeError)
  | some bg =>
    if bg.all fun imp => imp.isRespected intent then
      let m := s.ctx.addObjectWithIntent intent obj
      ({ s with ctx := m.1 }, m.2)
    else (s, some .illegalContextModification)

/-- fca/algorithms/exploration2/exploration.py:99-103 `reject_implication` in session `k`. -/
def reject (s : E2 α β) (k : ℕ) (imp : Imp β) (obj : α) (intent : Finset β) : E2 α β × Option PyErr :=
  match s.sessions[k]? with
  | none => (s, some .indexError)
  | some _ => if !(imp.isRespected intent) then s.addObject obj intent else (s, some .falseCounterexample)

/-- The calls a history consists of. -/
inductive Op (α β : Type) where
  | create
  | accept (k : ℕ) (imp : Imp β)
  | reject (k : ℕ) (imp : Imp β) (obj : α) (intent : Finset β)
  | addObject (obj : α) (intent : Finset β)

/-- One call. -/
def exec (s : E2 α β) : Op α β → E2 α β × Option PyErr
  | .create => (s.create, none)
  | .accept k i => s.accept k i
  | .reject k i o B => s.reject k i o B
  | .addObject o B => s.addObject o B

/-- A history: calls that raise are caught and the next call follows. -/
def run (s : E2 α β) (ops : List (Op α β)) : E2 α β := ops.foldl (fun s op => (s.exec op).1) s

end E2
