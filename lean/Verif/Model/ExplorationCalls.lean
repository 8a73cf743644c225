/-
The methods of `AttributeExploration` (fca/algorithms/exploration_/exploration.py:157-191) called by a user interface, on
a database over a `Context` and on one over a `PartialContext`.
-/
import Verif.Model.ExplorationDB
import Verif.Model.PartialContext

namespace EDB

variable {α β : Type} [DecidableEq α] [DecidableEq β]

/-- Calls after one another, until the first exception. -/
def andThen (r : EDB α β × Option PyErr) (f : EDB α β → EDB α β × Option PyErr) : EDB α β × Option PyErr :=
  match r.2 with
  | some e => (r.1, some e)
  | none => f r.1

/-- fca/algorithms/exploration_/exploration.py:169-173 `confirm_implications`; `complete()` does nothing for a `Context`
(147-150). -/
def confirmAll (E : Env α β) (s : EDB α β) (imps : List (Imp β)) : EDB α β × Option PyErr :=
  imps.foldl (fun r i => andThen r fun s => confirm E s i) (s, none)

/-- fca/algorithms/exploration_/exploration.py:175-185 `reject_implication`; `exs` are the names and the intents (sets)
given by the expert, two lists of the same length. `intents[0]` of an empty list raises IndexError. -/
def rejectWith [PyName α] [PyName β] (E : Env α β) (s : EDB α β) (imp : Imp β) (exs : List (α × Finset β)) :
    EDB α β × Option PyErr :=
  match exs with
  | [] => (s, some .indexError)
  | e :: _ =>
    if imp.isRespected e.2 then (s, some .notCounterexample)
    else exs.foldl (fun r e => andThen r fun s => addExample E s e.1 e.2) (s, none)

end EDB

namespace PDB

variable {α β : Type} [DecidableEq α] [DecidableEq β] [PyName α] [PyName β]

/-- fca/algorithms/exploration_/exploration.py:73-75 `unconfirm_implication` on a database over a partial context. -/
def unconfirm (E : Env α β) (s : PDB α β) (imp : Imp β) : PDB α β × Option PyErr :=
  match s.implications.findIdx? fun x => x.pyEq imp with
  | some k => recompute E { s with implications := s.implications.eraseIdx k }
  | none => (s, some .valueError)

end PDB

/-- The calls of a dialog whose examples are complete: fca/algorithms/exploration_/exploration.py:165-188. -/
inductive ACall (α β : Type)
  | confirm (imps : List (Imp β))
  | reject (imp : Imp β) (exs : List (α × Finset β))
  | unconfirm (imp : Imp β)

namespace ACall

variable {α β : Type} [DecidableEq α] [DecidableEq β] [PyName α] [PyName β]

/-- One call with a database over a `Context`: fca/algorithms/exploration_/exploration.py:165-188. -/
def onContext (E : EDB.Env α β) (s : EDB α β) : ACall α β → EDB α β × Option PyErr
  | confirm imps => s.confirmAll E imps
  | reject imp exs => s.rejectWith E imp exs
  | unconfirm imp => s.unconfirm E imp

/-- The same call with a database over a `PartialContext`; a complete example is given as the pair `(B, B)`:
fca/algorithms/exploration_/exploration.py:165-188. -/
def onPartial (E : PDB.Env α β) (s : PDB α β) : ACall α β → PDB α β × Option PyErr
  | confirm imps => s.confirmAll E imps
  | reject imp exs => s.reject E imp (exs.map fun e => (e.1, (e.2, e.2)))
  | unconfirm imp => s.unconfirm E imp

/-- A dialog: the exceptions are caught, shown, and the next call follows. -/
def dialog {σ : Type} (call : σ → ACall α β → σ × Option PyErr) : σ → List (ACall α β) → σ × List (Option PyErr)
  | s, [] => (s, [])
  | s, c :: cs =>
    let r := call s c
    let d := dialog call r.1 cs
    (d.1, r.2 :: d.2)

end ACall
