/-
Model of fca/algorithms/exploration.py (class BasicExploration).
-/
import Verif.Model.AIBasis
import Verif.Model.ContextOps

/-- fca/algorithms/exploration.py:44-53: the attributes of a `BasicExploration` instance. -/
structure BExp (α β : Type) where
  ctx : Ctx α β
  attrImps : List (Imp β)
  objImps : List (Imp α)
  confAttr : List (Imp β)
  confObj : List (Imp α)

namespace BExp

variable {α β : Type} [DecidableEq α] [DecidableEq β]

/-- What Python leaves open: how `list.sort` orders the lists of sets in aibasis.py (on the two sides), and
the order in which a set argument of `set_object_intent`, `set_attribute_extent` is traversed. -/
structure Env (α β : Type) where
  sortA : List (AI.Pre α β) → List (AI.Pre α β)
  sortO : List (AI.Pre β α) → List (AI.Pre β α)
  ordA : SetOrder β
  ordO : SetOrder α

/-- fca/context.py:281-285 `get_attribute_canonical_basis()`. The caching of the derivation operators during
the computation (`basis_computation`, 97-110) is not modelled here. -/
def attrBasis (E : Env α β) (c : Ctx α β) : Py (List (Imp β)) :=
  AI.computeCanonicalBasis E.sortA simpleClosure c

variable [PyName α] [PyName β]

/-- fca/algorithms/exploration.py:87-88, 101-102: the basis of the transposed context. -/
def objBasis (E : Env α β) (c : Ctx α β) : Py (List (Imp α)) := do
  let t ← c.transpose
  AI.computeCanonicalBasis E.sortO simpleClosure t

/-- fca/algorithms/exploration.py:55-59, 84-90 `__init__`, `_init_implications`. -/
def init (E : Env α β) (c : Ctx α β) : Py (BExp α β) := do
  let c ← c.deepcopy
  let a ← attrBasis E c
  let o ← objBasis E c
  .ok ⟨c, a, o, [], []⟩

/-- fca/algorithms/exploration.py:95-98, 103-106: `imp not in basis` compares with `Implication.__eq__`. -/
def openOnes {γ : Type} [DecidableEq γ] (new confirmed : List (Imp γ)) : List (Imp γ) :=
  new.filter fun imp => !(confirmed.any fun x => x.pyEq imp)

/-- fca/algorithms/exploration.py:92-106 `recompute_basis()`. -/
def recompute (E : Env α β) (s : BExp α β) : BExp α β × Option PyErr :=
  match attrBasis E s.ctx with
  | .error e => (s, some e)
  | .ok a =>
    let s1 := { s with attrImps := openOnes a s.confAttr }
    match objBasis E s.ctx with
    | .error e => (s1, some e)
    | .ok o => ({ s1 with objImps := openOnes o s.confObj }, none)

/-- fca/algorithms/exploration.py:164-176, 178-190 `check_extent_for_conflicts`, `check_intent_for_conflicts`.
`imp.conclusion` is the property `Implication.conclusion`, the conclusion without the premise. -/
def check {γ : Type} [DecidableEq γ] (confirmed : List (Imp γ)) (x : Finset γ) : Bool :=
  confirmed.all fun imp =>
    if imp.premise ∩ x ≠ imp.premise then true else decide (imp.reduced ∩ x = imp.reduced)

/-- A call of a mutator of the context followed by `recompute_basis()`. -/
def thenRecompute (E : Env α β) (s : BExp α β) (m : Ctx.Mut α β) : BExp α β × Option PyErr :=
  match m with
  | (c, some e) => ({ s with ctx := c }, some e)
  | (c, none) => recompute E { s with ctx := c }

/-- fca/algorithms/exploration.py:108-111 `confirm_attribute_implication` (indices ≥ 0). -/
def confirmAttr (s : BExp α β) (i : ℕ) : BExp α β × Option PyErr :=
  match s.attrImps[i]? with
  | none => (s, some .indexError)
  | some imp => ({ s with confAttr := s.confAttr ++ [imp], attrImps := s.attrImps.eraseIdx i }, none)

/-- fca/algorithms/exploration.py:113-116 `confirm_object_implication` (indices ≥ 0). -/
def confirmObj (s : BExp α β) (i : ℕ) : BExp α β × Option PyErr :=
  match s.objImps[i]? with
  | none => (s, some .indexError)
  | some imp => ({ s with confObj := s.confObj ++ [imp], objImps := s.objImps.eraseIdx i }, none)

/-- fca/algorithms/exploration.py:192-197 `add_object`. -/
def addObject (E : Env α β) (s : BExp α β) (intent : Finset β) (name : α) : BExp α β × Option PyErr :=
  if !(check s.confAttr intent) then (s, some .basisConflict)
  else thenRecompute E s (s.ctx.addObjectWithIntent intent name)

/-- fca/algorithms/exploration.py:199-204 `add_attribute`. -/
def addAttribute (E : Env α β) (s : BExp α β) (extent : Finset α) (name : β) : BExp α β × Option PyErr :=
  if !(check s.confObj extent) then (s, some .basisConflict)
  else thenRecompute E s (s.ctx.addAttributeWithExtent extent name)

/-- fca/algorithms/exploration.py:206-211 `edit_attribute`. -/
def editAttribute (E : Env α β) (s : BExp α β) (extent : Finset α) (name : β) : BExp α β × Option PyErr :=
  if !(check s.confObj extent) then (s, some .basisConflict)
  else thenRecompute E s (s.ctx.setAttributeExtent (E.ordO.enum extent) name)

/-- fca/algorithms/exploration.py:213-218 `edit_object`. -/
def editObject (E : Env α β) (s : BExp α β) (intent : Finset β) (name : α) : BExp α β × Option PyErr :=
  if !(check s.confAttr intent) then (s, some .basisConflict)
  else thenRecompute E s (s.ctx.setObjectIntent (E.ordA.enum intent) name)

/-- fca/algorithms/exploration.py:118-139 `counter_example_for_attr_implication` (indices ≥ 0). -/
def counterAttr (E : Env α β) (s : BExp α β) (name : α) (intent : Finset β) (i : ℕ) :
    BExp α β × Option PyErr :=
  match s.attrImps[i]? with
  | none => (s, some .indexError)
  | some imp =>
    if imp.premise ∩ intent ≠ imp.premise then (s, some .notCounterExamplePremise)
    else if imp.reduced ∩ intent = imp.reduced then (s, some .notCounterExampleConclusion)
    else if !(check s.confAttr intent) then (s, some .basisConflict)
    else thenRecompute E s (s.ctx.addObjectWithIntent intent name)

/-- fca/algorithms/exploration.py:141-162 `counter_example_for_obj_implication` (indices ≥ 0). -/
def counterObj (E : Env α β) (s : BExp α β) (name : β) (extent : Finset α) (i : ℕ) :
    BExp α β × Option PyErr :=
  match s.objImps[i]? with
  | none => (s, some .indexError)
  | some imp =>
    if imp.premise ∩ extent ≠ imp.premise then (s, some .notCounterExamplePremise)
    else if imp.reduced ∩ extent = imp.reduced then (s, some .notCounterExampleConclusion)
    else if !(check s.confObj extent) then (s, some .basisConflict)
    else thenRecompute E s (s.ctx.addAttributeWithExtent extent name)

/-- The calls an exploration history consists of. -/
inductive Op (α β : Type) where
  | confirmAttr (i : ℕ)
  | confirmObj (i : ℕ)
  | counterAttr (name : α) (intent : Finset β) (i : ℕ)
  | counterObj (name : β) (extent : Finset α) (i : ℕ)
  | addObject (intent : Finset β) (name : α)
  | addAttribute (extent : Finset α) (name : β)
  | editObject (intent : Finset β) (name : α)
  | editAttribute (extent : Finset α) (name : β)

/-- One call. -/
def exec (E : Env α β) (s : BExp α β) : Op α β → BExp α β × Option PyErr
  | .confirmAttr i => s.confirmAttr i
  | .confirmObj i => s.confirmObj i
  | .counterAttr n B i => s.counterAttr E n B i
  | .counterObj n A i => s.counterObj E n A i
  | .addObject B n => s.addObject E B n
  | .addAttribute A n => s.addAttribute E A n
  | .editObject B n => s.editObject E B n
  | .editAttribute A n => s.editAttribute E A n

/-- A history: calls that raise are caught and the next call follows. -/
def run (E : Env α β) (s : BExp α β) (ops : List (Op α β)) : BExp α β :=
  ops.foldl (fun s op => (s.exec E op).1) s

end BExp
