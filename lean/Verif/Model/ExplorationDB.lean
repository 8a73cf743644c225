/-
Model of fca/algorithms/exploration_/exploration.py (classes ExplorationDB and AttributeExploration on a
`Context`) and of the expert in fca/algorithms/exploration_/explorationtest.py.
-/
import Verif.Model.DGContext
import Verif.Model.ContextOps

/-- fca/algorithms/exploration_/exploration.py:50-60: the attributes of an `ExplorationDB`; the condition `_cond`
is part of `EDB.Env`. The list of implications and the context are shared with the caller of the constructor; here
they are modified through the database only; for several databases on one context see `DBs` (Model/SharedDB.lean). -/
structure EDB (α β : Type) where
  ctx : Ctx α β
  bg : List (Imp β)
  openImps : List (Imp β)

namespace EDB

variable {α β : Type} [DecidableEq α] [DecidableEq β]

/-- The condition on premises and what Python leaves open: the iteration orders of sets inside
`get_attribute_implications` (`ordA`, `ordO`, `ord₀`, `ord`), of an intent passed to `set_object_intent` (`ordI`) and
of an extent passed to `set_attribute_extent` (`ordE`). -/
structure Env (α β : Type) where
  cond : Finset β → Bool
  ordA : SetOrder β
  ordO : SetOrder α
  ord₀ : SetOrder β
  ord : ℕ → SetOrder β
  ordI : SetOrder β
  ordE : SetOrder α

/-- fca/context.py:292-301 `get_attribute_implications(confirmed=..., cond=...)`. The caching of the derivation
operators during the computation (`basis_computation`, 97-110) is not modelled here. -/
def relBasis (E : Env α β) (c : Ctx α β) (bg : List (Imp β)) : Py (List (Imp β)) :=
  c.computeDgBasis E.ordA E.ordO E.ord₀ E.ord bg E.cond

/-- fca/algorithms/exploration_/exploration.py:50-60 `__init__`. -/
def init (E : Env α β) (c : Ctx α β) (bg : List (Imp β)) : Py (EDB α β) := do
  let r ← relBasis E c bg
  .ok ⟨c, bg, r⟩

/-- fca/algorithms/exploration_/exploration.py:24-34, 36-46 `context_modifier`, `base_modifier`: what follows the
call of the decorated function. -/
def modifier (E : Env α β) : EDB α β × Option PyErr → EDB α β × Option PyErr
  | (s, some e) => (s, some e)
  | (s, none) =>
    match relBasis E s.ctx s.bg with
    | .ok r => ({ s with openImps := r }, none)
    | .error e => (s, some e)

/-- fca/algorithms/exploration_/exploration.py:62-66 `_check_intents([intent])`: true if nothing is raised. -/
def checkIntent (s : EDB α β) (intent : Finset β) : Bool := s.bg.all fun imp => imp.isRespected intent

/-- The context part of the state after a mutator of the context. -/
def setCtx (s : EDB α β) (m : Ctx.Mut α β) : EDB α β × Option PyErr := ({ s with ctx := m.1 }, m.2)

/-- fca/algorithms/exploration_/exploration.py:68-71 `confirm_implication`. -/
def confirm (E : Env α β) (s : EDB α β) (imp : Imp β) : EDB α β × Option PyErr :=
  modifier E ({ s with bg := s.bg ++ [imp] }, none)

/-- fca/algorithms/exploration_/exploration.py:73-75 `unconfirm_implication`: `list.remove`. -/
def unconfirm (E : Env α β) (s : EDB α β) (imp : Imp β) : EDB α β × Option PyErr :=
  modifier E (match s.bg.findIdx? fun x => x.pyEq imp with
    | some k => ({ s with bg := s.bg.eraseIdx k }, none)
    | none => (s, some .valueError))

/-- fca/algorithms/exploration_/exploration.py:111-113 `touch`. -/
def touch (E : Env α β) (s : EDB α β) : EDB α β × Option PyErr := modifier E (s, none)

variable [PyName α] [PyName β]

/-- fca/algorithms/exploration_/exploration.py:77-83 `add_example` (`intent` is a `set`). -/
def addExample (E : Env α β) (s : EDB α β) (name : α) (intent : Finset β) : EDB α β × Option PyErr :=
  modifier E (if !(s.checkIntent intent) then (s, some .illegalContextModification)
    else if name ∈ s.ctx.objects then (s, some .notUniqueObjectName)
    else s.setCtx (s.ctx.addObjectWithIntent intent name))

/-- fca/algorithms/exploration_/exploration.py:85-87, 107-109 `delete_example`, `delete_attribute`: `Context` has
neither `delete_object_by_name` nor `delete_attribute_by_name`. -/
def delete (E : Env α β) (s : EDB α β) : EDB α β × Option PyErr := modifier E (s, some .attributeError)

/-- fca/algorithms/exploration_/exploration.py:95-99: the renaming at the end of `edit_example`. -/
def editRename (s : EDB α β) (name old : α) : EDB α β × Option PyErr :=
  if old ≠ name then
    if name ∈ s.ctx.objects then (s, some .notUniqueObjectName)
    else s.setCtx (s.ctx.renameObject old name)
  else (s, none)

/-- fca/algorithms/exploration_/exploration.py:89-99 `edit_example` (`intent` is a `set`). -/
def editExample (E : Env α β) (s : EDB α β) (name old : α) (intent : Finset β) : EDB α β × Option PyErr :=
  modifier E (match s.ctx.objectIntent old with
    | .error e => (s, some e)
    | .ok oldIntent =>
      if intent ≠ oldIntent then
        if !(s.checkIntent intent) then (s, some .illegalContextModification)
        else match s.setCtx (s.ctx.setObjectIntent (E.ordI.enum intent) old) with
          | (s', some e) => (s', some e)
          | (s', none) => s'.editRename name old
      else s.editRename name old)

/-- fca/algorithms/exploration_/exploration.py:101-105 `add_attribute`. -/
def addAttribute (E : Env α β) (s : EDB α β) (name : β) (extent : Finset α) : EDB α β × Option PyErr :=
  modifier E (if name ∈ s.ctx.attributes then (s, some .notUniqueAttributeName)
    else s.setCtx (s.ctx.addAttributeWithExtent extent name))

/-- fca/algorithms/exploration_/exploration.py:115-133 `edit_attribute`. `set.add` and `set.discard` return `None`, so
`intents` is a list of `None`, and `is_respected(None)` raises TypeError (fca/implication.py:92). -/
def editAttribute (E : Env α β) (s : EDB α β) (name old : β) (extent : Finset α) : EDB α β × Option PyErr :=
  modifier E (match s.ctx.objects.mapM s.ctx.objectIntent with
    | .error e => (s, some e)
    | .ok intents =>
      if intents ≠ [] ∧ s.bg ≠ [] then (s, some .typeError)
      else if 1 < s.ctx.attributes.count name then (s, some .notUniqueAttributeName)
      else match s.setCtx (s.ctx.setAttributeExtent (E.ordE.enum extent) old) with
        | (s', some e) => (s', some e)
        | (s', none) => s'.setCtx (s'.ctx.renameAttribute old name))

/-- The calls a history consists of. -/
inductive Op (α β : Type) where
  | confirm (imp : Imp β)
  | unconfirm (imp : Imp β)
  | addExample (name : α) (intent : Finset β)
  | deleteExample (name : α)
  | editExample (name old : α) (intent : Finset β)
  | addAttribute (name : β) (extent : Finset α)
  | deleteAttribute (name : β)
  | editAttribute (name old : β) (extent : Finset α)
  | touch

/-- One call. -/
def exec (E : Env α β) (s : EDB α β) : Op α β → EDB α β × Option PyErr
  | .confirm i => s.confirm E i
  | .unconfirm i => s.unconfirm E i
  | .addExample n B => s.addExample E n B
  | .deleteExample _ => s.delete E
  | .editExample n o B => s.editExample E n o B
  | .addAttribute n A => s.addAttribute E n A
  | .deleteAttribute _ => s.delete E
  | .editAttribute n o A => s.editAttribute E n o A
  | .touch => s.touch E

/-- A history: calls that raise are caught and the next call follows. -/
def run (E : Env α β) (s : EDB α β) (ops : List (Op α β)) : EDB α β :=
  ops.foldl (fun s op => (s.exec E op).1) s

/-! ### AttributeExploration and the expert -/

/-- fca/algorithms/exploration_/explorationtest.py:18-19 `GenericExpert.is_valid`. -/
def expertValid (basis : List (Imp β)) (imp : Imp β) : Bool :=
  decide (imp.reduced ⊆ simpleClosure imp.premise basis)

/-- fca/algorithms/exploration_/exploration.py:175-185 `reject_implication` with the counter example of
fca/algorithms/exploration_/explorationtest.py:29-30 `provide_counterexample`: the closure of the premise under the name
`str(imp.premise)`; `name` is the rendering of a set. `complete()` does nothing for a `Context` (147-150). -/
def reject (E : Env α β) (name : Finset β → α) (basis : List (Imp β)) (s : EDB α β) (imp : Imp β) :
    EDB α β × Option PyErr :=
  let intent := simpleClosure imp.premise basis
  if imp.isRespected intent then (s, some .notCounterexample)
  else s.addExample E (name imp.premise) intent

/-- fca/algorithms/exploration_/explorationtest.py:21-27 `explore` (`none`: the loop did not end within the given number
of answers). Confirming is fca/algorithms/exploration_/exploration.py:165-173. -/
def explore (E : Env α β) (name : Finset β → α) (basis : List (Imp β)) :
    ℕ → EDB α β → Option (EDB α β × Option PyErr)
  | 0, _ => none
  | fuel + 1, s =>
    match s.openImps with
    | [] => some (s, none)
    | imp :: _ =>
      match if expertValid basis imp then s.confirm E imp else s.reject E name basis imp with
      | (s', some e) => some (s', some e)
      | (s', none) => explore E name basis fuel s'

/-- fca/algorithms/exploration_/explorationtest.py:21-27: the implications `explore` asks the expert about
(`is_valid(imp)`, line 24), in this order. -/
def exploreQuestions (E : Env α β) (name : Finset β → α) (basis : List (Imp β)) : ℕ → EDB α β → List (Imp β)
  | 0, _ => []
  | fuel + 1, s =>
    match s.openImps with
    | [] => []
    | imp :: _ =>
      match if expertValid basis imp then s.confirm E imp else s.reject E name basis imp with
      | (_, some _) => [imp]
      | (s', none) => imp :: exploreQuestions E name basis fuel s'

end EDB
