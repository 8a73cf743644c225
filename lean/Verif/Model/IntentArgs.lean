/-
Intents and extents given as something else than a `set`: a frozenset, a list or tuple of names, a pair of sets (the
partial examples of `PartialContext`), an iterator. What the methods of `Context`, of the three explorations and of
the pattern exploration do with them. Names are assumed not to be sets themselves.
-/
import Verif.Model.ExplorationCalls
import Verif.Model.Exploration2
import Verif.Model.BasicExploration
import Verif.Model.Patterns

/-- An argument that stands for a set of names. -/
inductive PyColl (γ : Type) where
  /-- a `set` -/
  | set (s : Finset γ)
  /-- a `frozenset` -/
  | frozen (s : Finset γ)
  /-- a list or tuple of names -/
  | list (l : List γ)
  /-- a tuple or list of two sets -/
  | pair (x q : Finset γ)
  /-- an iterator (a generator, `map(…)`, `iter(…)`) that is about to yield `l` -/
  | iter (l : List γ)

namespace PyColl

variable {γ : Type} [DecidableEq γ]

/-- `a in v`, with the argument afterwards: an iterator is consumed up to the first occurrence, or to its end. A name
is never equal to a set. -/
def mem (a : γ) : PyColl γ → Bool × PyColl γ
  | .set s => (decide (a ∈ s), .set s)
  | .frozen s => (decide (a ∈ s), .frozen s)
  | .list l => (decide (a ∈ l), .list l)
  | .pair x q => (false, .pair x q)
  | .iter l => (decide (a ∈ l), .iter (l.drop (l.idxOf a + 1)))

/-- fca/context.py:381, 385: `[(x in v) for x in names]`, with the argument afterwards. -/
def row : List γ → PyColl γ → List Bool × PyColl γ
  | [], v => ([], v)
  | a :: as, v =>
    let r := v.mem a
    let t := row as r.2
    (r.1 :: t.1, t.2)

/-- fca/context.py:390, 398: `[indices[x] for x in v]` looks up the names of the argument; a set is no key of a
dictionary (TypeError, unhashable). `ord` is the order in which sets are iterated. -/
def names (ord : SetOrder γ) : PyColl γ → Py (List γ)
  | .set s => .ok (ord.enum s)
  | .frozen s => .ok (ord.enum s)
  | .list l => .ok l
  | .pair _ _ => .error .typeError
  | .iter l => .ok l

/-- `s & v` for a set `s`: an operand of another kind raises TypeError. -/
def inter (s : Finset γ) : PyColl γ → Py (Finset γ)
  | .set t => .ok (s ∩ t)
  | .frozen t => .ok (s ∩ t)
  | .list _ => .error .typeError
  | .pair _ _ => .error .typeError
  | .iter _ => .error .typeError

/-- `v != s` for a set `s`. -/
def ne (v : PyColl γ) (s : Finset γ) : Bool :=
  match v with
  | .set t => decide (t ≠ s)
  | .frozen t => decide (t ≠ s)
  | .list _ => true
  | .pair _ _ => true
  | .iter _ => true

/-- `set(v)`, with the argument afterwards; `set` of two sets raises TypeError. -/
def toSet : PyColl γ → Py (Finset γ × PyColl γ)
  | .set s => .ok (s, .set s)
  | .frozen s => .ok (s, .frozen s)
  | .list l => .ok (l.toFinset, .list l)
  | .pair _ _ => .error .typeError
  | .iter l => .ok (l.toFinset, .iter [])

end PyColl

/-- fca/implication.py:84-93 `is_respected`: everything that is not a `set` is taken for a partial example;
`some_set[1]` raises TypeError for a frozenset and an iterator and IndexError for a list with fewer than two elements,
and a set is not compared with a name. -/
def Imp.isRespectedColl {γ : Type} [DecidableEq γ] (i : Imp γ) : PyColl γ → Py Bool
  | .set s => .ok (i.isRespected s)
  | .frozen _ => .error .typeError
  | .list l => .error (if l.length < 2 then .indexError else .typeError)
  | .pair x q => .ok (i.isRespectedPartial (x, q))
  | .iter _ => .error .typeError

/-- `for imp in implications: if not imp.is_respected(v): …`: true if no implication is found that is not respected
(fca/algorithms/exploration_/exploration.py:64-66, fca/algorithms/exploration2/exploration.py:71-74). -/
def respectsAll {γ : Type} [DecidableEq γ] (v : PyColl γ) : List (Imp γ) → Py Bool
  | [] => .ok true
  | i :: is =>
    match i.isRespectedColl v with
    | .error e => .error e
    | .ok false => .ok false
    | .ok true => respectsAll v is

namespace Ctx

variable {α β : Type} [DecidableEq α] [DecidableEq β] [PyName α] [PyName β]

/-- fca/context.py:380-382 `add_object_with_intent`. -/
def addObjectWithIntentColl (c : Ctx α β) (intent : PyColl β) (name : α) : Mut α β :=
  c.addObject (intent.row c.attributes).1 name

/-- fca/context.py:384-386 `add_attribute_with_extent`. -/
def addAttributeWithExtentColl (c : Ctx α β) (extent : PyColl α) (name : β) : Mut α β :=
  c.addAttribute (extent.row c.objects).1 name

/-- fca/context.py:396-401 `set_object_intent`. -/
def setObjectIntentColl (ord : SetOrder β) (c : Ctx α β) (intent : PyColl β) (name : α) : Mut α β :=
  match intent.names ord with
  | .error e => (c, some e)
  | .ok l => c.setObjectIntent l name

/-- fca/context.py:388-394 `set_attribute_extent`. -/
def setAttributeExtentColl (ord : SetOrder α) (c : Ctx α β) (extent : PyColl α) (name : β) : Mut α β :=
  match extent.names ord with
  | .error e => (c, some e)
  | .ok l => c.setAttributeExtent l name

end Ctx

namespace EDB

variable {α β : Type} [DecidableEq α] [DecidableEq β] [PyName α] [PyName β]

/-- fca/algorithms/exploration_/exploration.py:77-83 `add_example`. -/
def addExampleColl (E : Env α β) (s : EDB α β) (name : α) (intent : PyColl β) : EDB α β × Option PyErr :=
  modifier E (match respectsAll intent s.bg with
    | .error e => (s, some e)
    | .ok false => (s, some .illegalContextModification)
    | .ok true =>
      if name ∈ s.ctx.objects then (s, some .notUniqueObjectName)
      else s.setCtx (s.ctx.addObjectWithIntentColl intent name))

/-- fca/algorithms/exploration_/exploration.py:89-99 `edit_example`. -/
def editExampleColl (E : Env α β) (s : EDB α β) (name old : α) (intent : PyColl β) : EDB α β × Option PyErr :=
  modifier E (match s.ctx.objectIntent old with
    | .error e => (s, some e)
    | .ok oldIntent =>
      if intent.ne oldIntent then
        match respectsAll intent s.bg with
        | .error e => (s, some e)
        | .ok false => (s, some .illegalContextModification)
        | .ok true =>
          match s.setCtx (s.ctx.setObjectIntentColl E.ordI intent old) with
          | (s', some e) => (s', some e)
          | (s', none) => s'.editRename name old
      else s.editRename name old)

/-- fca/algorithms/exploration_/exploration.py:101-105 `add_attribute`. -/
def addAttributeColl (E : Env α β) (s : EDB α β) (name : β) (extent : PyColl α) : EDB α β × Option PyErr :=
  modifier E (if name ∈ s.ctx.attributes then (s, some .notUniqueAttributeName)
    else s.setCtx (s.ctx.addAttributeWithExtentColl extent name))

/-- fca/algorithms/exploration_/exploration.py:115-133 `edit_attribute`: `obj in extent` is evaluated for every object
(line 119) before the extent is given to `set_attribute_extent`. See `EDB.editAttribute`. -/
def editAttributeColl (E : Env α β) (s : EDB α β) (name old : β) (extent : PyColl α) : EDB α β × Option PyErr :=
  modifier E (match s.ctx.objects.mapM s.ctx.objectIntent with
    | .error e => (s, some e)
    | .ok intents =>
      if intents ≠ [] ∧ s.bg ≠ [] then (s, some .typeError)
      else if 1 < s.ctx.attributes.count name then (s, some .notUniqueAttributeName)
      else match s.setCtx (s.ctx.setAttributeExtentColl E.ordE (extent.row s.ctx.objects).2 old) with
        | (s', some e) => (s', some e)
        | (s', none) => s'.setCtx (s'.ctx.renameAttribute old name))

/-- fca/algorithms/exploration_/exploration.py:175-185 `reject_implication`; `exs` are the names and the intents given
by the expert, two lists of the same length (a single name with a single intent only if the intent is a `set`,
line 179). -/
def rejectWithColl (E : Env α β) (s : EDB α β) (imp : Imp β) (exs : List (α × PyColl β)) : EDB α β × Option PyErr :=
  match exs with
  | [] => (s, some .indexError)
  | e :: _ =>
    match imp.isRespectedColl e.2 with
    | .error e => (s, some e)
    | .ok true => (s, some .notCounterexample)
    | .ok false => exs.foldl (fun r e => andThen r fun s => addExampleColl E s e.1 e.2) (s, none)

/-- The calls a history consists of; sets may be replaced by other collections. -/
inductive OpC (α β : Type) where
  | plain (op : Op α β)
  | addExample (name : α) (intent : PyColl β)
  | editExample (name old : α) (intent : PyColl β)
  | addAttribute (name : β) (extent : PyColl α)
  | editAttribute (name old : β) (extent : PyColl α)

/-- One call. -/
def execC (E : Env α β) (s : EDB α β) : OpC α β → EDB α β × Option PyErr
  | .plain op => s.exec E op
  | .addExample n v => s.addExampleColl E n v
  | .editExample n o v => s.editExampleColl E n o v
  | .addAttribute n v => s.addAttributeColl E n v
  | .editAttribute n o v => s.editAttributeColl E n o v

/-- A history: calls that raise are caught and the next call follows. -/
def runC (E : Env α β) (s : EDB α β) (ops : List (OpC α β)) : EDB α β :=
  ops.foldl (fun s op => (s.execC E op).1) s

end EDB

namespace E2

variable {α β : Type} [DecidableEq α] [DecidableEq β] [PyName α] [PyName β]

/-- fca/algorithms/exploration2/exploration.py:46-50, 70-74 `ExplorationContext.add_object`. -/
def addObjectColl (s : E2 α β) (obj : α) (intent : PyColl β) : E2 α β × Option PyErr :=
  match s.sessions.getLast? with
  | none => (s, some .attributeError)
  | some bg =>
    match respectsAll intent bg with
    | .error e => (s, some e)
    | .ok false => (s, some .illegalContextModification)
    | .ok true =>
      let m := s.ctx.addObjectWithIntentColl intent obj
      ({ s with ctx := m.1 }, m.2)

/-- fca/algorithms/exploration2/exploration.py:99-103 `reject_implication` in session `k`. -/
def rejectColl (s : E2 α β) (k : ℕ) (imp : Imp β) (obj : α) (intent : PyColl β) : E2 α β × Option PyErr :=
  match s.sessions[k]? with
  | none => (s, some .indexError)
  | some _ =>
    match imp.isRespectedColl intent with
    | .error e => (s, some e)
    | .ok true => (s, some .falseCounterexample)
    | .ok false => s.addObjectColl obj intent

/-- The calls a history consists of. -/
inductive OpC (α β : Type) where
  | plain (op : Op α β)
  | reject (k : ℕ) (imp : Imp β) (obj : α) (intent : PyColl β)
  | addObject (obj : α) (intent : PyColl β)

/-- One call. -/
def execC (s : E2 α β) : OpC α β → E2 α β × Option PyErr
  | .plain op => s.exec op
  | .reject k i o v => s.rejectColl k i o v
  | .addObject o v => s.addObjectColl o v

/-- A history: calls that raise are caught and the next call follows. -/
def runC (s : E2 α β) (ops : List (OpC α β)) : E2 α β := ops.foldl (fun s op => (s.execC op).1) s

end E2

namespace BExp

variable {α β : Type} [DecidableEq α] [DecidableEq β] [PyName α] [PyName β]

/-- fca/algorithms/exploration.py:164-176, 178-190 `check_extent_for_conflicts`, `check_intent_for_conflicts`. -/
def checkColl {γ : Type} [DecidableEq γ] (v : PyColl γ) : List (Imp γ) → Py Bool
  | [] => .ok true
  | imp :: rest => do
    let p ← v.inter imp.premise
    if p ≠ imp.premise then checkColl v rest
    else do
      let q ← v.inter imp.reduced
      if q = imp.reduced then checkColl v rest else .ok false

/-- What follows the check in the four methods (exploration.py:192-218). -/
def checked {γ : Type} [DecidableEq γ] (E : Env α β) (s : BExp α β) (v : PyColl γ) (K : List (Imp γ))
    (m : Ctx.Mut α β) : BExp α β × Option PyErr :=
  match checkColl v K with
  | .error e => (s, some e)
  | .ok false => (s, some .basisConflict)
  | .ok true => thenRecompute E s m

/-- fca/algorithms/exploration.py:192-197 `add_object`. -/
def addObjectColl (E : Env α β) (s : BExp α β) (intent : PyColl β) (name : α) : BExp α β × Option PyErr :=
  checked E s intent s.confAttr (s.ctx.addObjectWithIntentColl intent name)

/-- fca/algorithms/exploration.py:199-204 `add_attribute`. -/
def addAttributeColl (E : Env α β) (s : BExp α β) (extent : PyColl α) (name : β) : BExp α β × Option PyErr :=
  checked E s extent s.confObj (s.ctx.addAttributeWithExtentColl extent name)

/-- fca/algorithms/exploration.py:206-211 `edit_attribute`. -/
def editAttributeColl (E : Env α β) (s : BExp α β) (extent : PyColl α) (name : β) : BExp α β × Option PyErr :=
  checked E s extent s.confObj (s.ctx.setAttributeExtentColl E.ordO extent name)

/-- fca/algorithms/exploration.py:213-218 `edit_object`. -/
def editObjectColl (E : Env α β) (s : BExp α β) (intent : PyColl β) (name : α) : BExp α β × Option PyErr :=
  checked E s intent s.confAttr (s.ctx.setObjectIntentColl E.ordA intent name)

/-- fca/algorithms/exploration.py:118-139, 141-162 `counter_example_for_attr_implication`,
`counter_example_for_obj_implication`: the tests before the check; `rest` is what follows. -/
def counterColl {γ : Type} [DecidableEq γ] (s : BExp α β) (L : List (Imp γ)) (v : PyColl γ) (i : ℕ)
    (rest : BExp α β × Option PyErr) : BExp α β × Option PyErr :=
  match L[i]? with
  | none => (s, some .indexError)
  | some imp =>
    match v.inter imp.premise with
    | .error e => (s, some e)
    | .ok p =>
      if p ≠ imp.premise then (s, some .notCounterExamplePremise)
      else match v.inter imp.reduced with
        | .error e => (s, some e)
        | .ok q => if q = imp.reduced then (s, some .notCounterExampleConclusion) else rest

/-- fca/algorithms/exploration.py:118-139 `counter_example_for_attr_implication` (indices ≥ 0). -/
def counterAttrColl (E : Env α β) (s : BExp α β) (name : α) (intent : PyColl β) (i : ℕ) : BExp α β × Option PyErr :=
  counterColl s s.attrImps intent i (addObjectColl E s intent name)

/-- fca/algorithms/exploration.py:141-162 `counter_example_for_obj_implication` (indices ≥ 0). -/
def counterObjColl (E : Env α β) (s : BExp α β) (name : β) (extent : PyColl α) (i : ℕ) : BExp α β × Option PyErr :=
  counterColl s s.objImps extent i (addAttributeColl E s extent name)

/-- The calls an exploration history consists of. -/
inductive OpC (α β : Type) where
  | plain (op : Op α β)
  | counterAttr (name : α) (intent : PyColl β) (i : ℕ)
  | counterObj (name : β) (extent : PyColl α) (i : ℕ)
  | addObject (intent : PyColl β) (name : α)
  | addAttribute (extent : PyColl α) (name : β)
  | editObject (intent : PyColl β) (name : α)
  | editAttribute (extent : PyColl α) (name : β)

/-- One call. -/
def execC (E : Env α β) (s : BExp α β) : OpC α β → BExp α β × Option PyErr
  | .plain op => s.exec E op
  | .counterAttr n v i => s.counterAttrColl E n v i
  | .counterObj n v i => s.counterObjColl E n v i
  | .addObject v n => s.addObjectColl E v n
  | .addAttribute v n => s.addAttributeColl E v n
  | .editObject v n => s.editObjectColl E v n
  | .editAttribute v n => s.editAttributeColl E v n

/-- A history: calls that raise are caught and the next call follows. -/
def runC (E : Env α β) (s : BExp α β) (ops : List (OpC α β)) : BExp α β :=
  ops.foldl (fun s op => (s.execC E op).1) s

end BExp

namespace PExp

variable {α β : Type} [DecidableEq α] [DecidableEq β] [PyName α] [PyName β]

/-- fca/algorithms/patterns.py:150-155 `add_negative_example`: with a pattern, `set(obj_intent)` is formed before the
intent is given to `add_object_with_intent`. -/
def addNegativeColl (s : PExp α β) (name : α) (intent : PyColl β) (pattern : Option (List β)) :
    PExp α β × Option PyErr :=
  match pattern with
  | some p =>
    match intent.toSet with
    | .error e => (s, some e)
    | .ok (B, v) =>
      if p.toFinset \ B ≠ ∅ then (s, some .notNegativeExample)
      else
        let m := s.neg.addObjectWithIntentColl v name
        ({ s with neg := m.1 }, m.2)
  | none =>
    let m := s.neg.addObjectWithIntentColl intent name
    ({ s with neg := m.1 }, m.2)

/-- fca/algorithms/patterns.py:157-159 `add_positive_example`. -/
def addPositiveColl (s : PExp α β) (name : α) (intent : PyColl β) : PExp α β × Option PyErr :=
  let m := s.pos.addObjectWithIntentColl intent name
  ({ s with pos := m.1 }, m.2)

end PExp
