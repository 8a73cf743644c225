/-
Model of fca/algorithms/exploration2/exploration.py with any number of contexts, `ExplorationContext` objects,
`Exploration` objects and sessions, and of which of them share what.
-/
import Verif.Model.Exploration2

/-- fca/algorithms/exploration2/exploration.py: the objects of a program. Objects are referred to by their position. An
`ExplorationContext` (19-50) has a context (position in `ctxs`) and perhaps a basis (position of the session that made it,
80-83); a session (76-103) has an `ExplorationContext` (position in `ecs`) and the background implications of its own
basis (52-74); an `Exploration` (105-115) has an `ExplorationContext`. -/
structure E2W (α β : Type) where
  ctxs : List (Ctx α β)
  ecs : List (ℕ × Option ℕ)
  sessions : List (ℕ × List (Imp β))
  expls : List ℕ

namespace E2W

variable {α β : Type} [DecidableEq α] [DecidableEq β]

/-- fca/algorithms/exploration2/exploration.py:34-35 `ExplorationContext(cxt)`. (IndexError, here and below: the program
refers to an object that does not exist.) -/
def wrap (w : E2W α β) (c : ℕ) : E2W α β × Option PyErr :=
  if c < w.ctxs.length then ({ w with ecs := w.ecs ++ [(c, none)] }, none) else (w, some .indexError)

/-- fca/algorithms/exploration2/exploration.py:108-109 `Exploration(cxt)`: `copy(cxt)` is a new `ExplorationContext` with
the same context and the same basis. -/
def explore (w : E2W α β) (e : ℕ) : E2W α β × Option PyErr :=
  match w.ecs[e]? with
  | none => (w, some .indexError)
  | some p => ({ w with ecs := w.ecs ++ [p], expls := w.expls ++ [w.ecs.length] }, none)

/-- fca/algorithms/exploration2/exploration.py:111-112 `set_context` of exploration `x`. -/
def setContext (w : E2W α β) (x e : ℕ) : E2W α β × Option PyErr :=
  match w.expls[x]?, w.ecs[e]? with
  | some _, some p => ({ w with ecs := w.ecs ++ [p], expls := w.expls.set x w.ecs.length }, none)
  | _, _ => (w, some .indexError)

/-- fca/algorithms/exploration2/exploration.py:114-115, 80-83, 57-59 `create_session` of exploration `x`: a new basis,
which the `ExplorationContext` of `x` now checks against. -/
def create (w : E2W α β) (x : ℕ) : E2W α β × Option PyErr :=
  match w.expls[x]? with
  | none => (w, some .indexError)
  | some e =>
    match w.ecs[e]? with
    | none => (w, some .indexError)
    | some p => ({ w with ecs := w.ecs.set e (p.1, some w.sessions.length), sessions := w.sessions ++ [(e, [])] }, none)

/-- fca/algorithms/exploration2/exploration.py:93-94, 61-62 `get_candidates` of session `k`. -/
def candidates (E : EDB.Env α β) (w : E2W α β) (k : ℕ) : Py (List (Imp β)) :=
  match w.sessions[k]? with
  | none => .error .indexError
  | some (e, bg) =>
    match w.ecs[e]? with
    | none => .error .indexError
    | some (c, _) =>
      match w.ctxs[c]? with
      | none => .error .indexError
      | some ctx => ctx.computeDgBasis E.ordA E.ordO E.ord₀ E.ord bg (fun _ => true)

/-- fca/algorithms/exploration2/exploration.py:96-97, 67-68 `accept_implication` in session `k`. -/
def accept (w : E2W α β) (k : ℕ) (imp : Imp β) : E2W α β × Option PyErr :=
  match w.sessions[k]? with
  | none => (w, some .indexError)
  | some (e, bg) => ({ w with sessions := w.sessions.set k (e, bg ++ [imp]) }, none)

variable [PyName α] [PyName β]

/-- fca/algorithms/exploration2/exploration.py:46-50, 70-74 `ExplorationContext.add_object`. -/
def addObject (w : E2W α β) (e : ℕ) (obj : α) (intent : Finset β) : E2W α β × Option PyErr :=
  match w.ecs[e]? with
  | none => (w, some .indexError)
  | some (_, none) => (w, some .attributeError)
  | some (c, some b) =>
    match w.sessions[b]?, w.ctxs[c]? with
    | some (_, bg), some ctx =>
      if bg.all fun imp => imp.isRespected intent then
        let m := ctx.addObjectWithIntent intent obj
        ({ w with ctxs := w.ctxs.set c m.1 }, m.2)
      else (w, some .illegalContextModification)
    | _, _ => (w, some .indexError)

/-- fca/algorithms/exploration2/exploration.py:99-103 `reject_implication` in session `k`. -/
def reject (w : E2W α β) (k : ℕ) (imp : Imp β) (obj : α) (intent : Finset β) : E2W α β × Option PyErr :=
  match w.sessions[k]? with
  | none => (w, some .indexError)
  | some (e, _) => if !(imp.isRespected intent) then w.addObject e obj intent else (w, some .falseCounterexample)

/-- The calls a program consists of. -/
inductive Op (α β : Type) where
  | wrap (c : ℕ)
  | explore (e : ℕ)
  | setContext (x e : ℕ)
  | create (x : ℕ)
  | accept (k : ℕ) (imp : Imp β)
  | reject (k : ℕ) (imp : Imp β) (obj : α) (intent : Finset β)
  | addObject (e : ℕ) (obj : α) (intent : Finset β)

/-- One call. -/
def exec (w : E2W α β) : Op α β → E2W α β × Option PyErr
  | .wrap c => w.wrap c
  | .explore e => w.explore e
  | .setContext x e => w.setContext x e
  | .create x => w.create x
  | .accept k i => w.accept k i
  | .reject k i o B => w.reject k i o B
  | .addObject e o B => w.addObject e o B

/-- A program: calls that raise are caught and the next call follows. -/
def run (w : E2W α β) (ops : List (Op α β)) : E2W α β := ops.foldl (fun w op => (w.exec op).1) w

end E2W
