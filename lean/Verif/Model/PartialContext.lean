/-
Model of fca/partial_context.py, fca/compare_context.py, and of exploration with partially given examples
(fca/algorithms/exploration_/exploration.py on a PartialContext).
-/
import Verif.Model.ContextOps
import Verif.Model.DGContext

/-- fca/compare_context.py:4-28 `subseteq_table`. In the loop (lines 23-27) the first round computes `a = 0 / row_length`,
a float, and indexes a list with it: TypeError. So the loop returns only if it has no round. -/
def subseteqTable (l r : List (List Bool)) : Py Bool :=
  if l.length ≠ r.length then .error .valueError
  else match l, r with
    | [], _ => .error .indexError
    | _, [] => .error .valueError
    | l0 :: _, r0 :: _ =>
      if l0.length ≠ r0.length then .error .valueError
      else if l.length * l0.length = 0 then .ok true
      else .error .typeError

/-- A `PartialContext` object: fca/partial_context.py:32-35. -/
structure PCtx (α β : Type) where
  objects : List α
  attributes : List β
  x : Ctx α β
  q : Ctx α β
  deriving DecidableEq

namespace PCtx

variable {α β : Type} [DecidableEq α] [DecidableEq β]

/-- Changes of a partial context: the new state and the exception raised, if any. -/
abbrev Mut (α β : Type) := PCtx α β × Option PyErr

section make
variable [PyName α] [PyName β]

/-- fca/partial_context.py:16-35 the constructor; the tables are lists of lists. -/
def make (xt qt : List (List Bool)) (objects : List α) (attributes : List β) : Py (PCtx α β) := do
  let b ← subseteqTable xt qt
  if b then
    let x ← Ctx.make xt objects attributes
    let q ← Ctx.make qt objects attributes
    .ok ⟨objects, attributes, x, q⟩
  else .error .valueError

/-- fca/partial_context.py:43-57 `transpose`. -/
def transpose (p : PCtx α β) : Py (PCtx β α) := do
  let t ← (List.range p.attributes.length).mapM fun j =>
    (List.range p.objects.length).mapM fun i => do
      let xr ← p.x.nd.row i
      let xv ← pyGet xr j
      let qr ← p.q.nd.row i
      let qv ← pyGet qr j
      .ok (xv, qv)
  PCtx.make (t.map fun r => r.map Prod.fst) (t.map fun r => r.map Prod.snd) p.attributes p.objects

/-- fca/partial_context.py:91-96 `add_object_with_intent`; `intent` is the pair `(x, q)`. -/
def addObjectWithIntent (p : PCtx α β) (intent : Finset β × Finset β) (name : α) : Mut α β :=
  if ¬ intent.1 ⊆ intent.2 then (p, some .valueError)
  else
    let mx := p.x.addObjectWithIntent intent.1 name
    match mx.2 with
    | some e => ({ p with x := mx.1 }, some e)
    | none =>
      let mq := p.q.addObjectWithIntent intent.2 name
      match mq.2 with
      | some e => ({ p with x := mx.1, q := mq.1 }, some e)
      | none => (⟨p.objects ++ [name], p.attributes, mx.1, mq.1⟩, none)

/-- fca/partial_context.py:100-113: one round of the loop of `complete`; printing (lines 115-119) is left out. `ord` is the
order in which `set_object_intent` iterates over its argument. -/
def completeOne (ord : SetOrder β) (imps : List (Imp β)) (p : PCtx α β) (o : α) : Mut α β :=
  match p.x.objectIntent o with
  | .error e => (p, some e)
  | .ok xi =>
    let nx := simpleClosure xi imps
    match p.q.objectIntent o with
    | .error e => (p, some e)
    | .ok qi =>
      if ¬ nx ⊆ qi then (p, some .valueError)
      else
        let mx := p.x.setObjectIntent (ord.enum nx) o
        match mx.2 with
        | some e => ({ p with x := mx.1 }, some e)
        | none =>
          let nq := qi.filter fun a => a ∈ nx ∨ simpleClosure (nx ∪ {a}) imps ⊆ qi
          let mq := p.q.setObjectIntent (ord.enum nq) o
          ({ p with x := mx.1, q := mq.1 }, mq.2)

/-- The loop over the given objects; it ends with the first exception. -/
def completeLoop (ord : SetOrder β) (imps : List (Imp β)) : List α → PCtx α β → Mut α β
  | [], p => (p, none)
  | o :: os, p =>
    match p.completeOne ord imps o with
    | (p', some e) => (p', some e)
    | (p', none) => completeLoop ord imps os p'

/-- fca/partial_context.py:98-119 `complete`. -/
def complete (ord : SetOrder β) (p : PCtx α β) (imps : List (Imp β)) : Mut α β :=
  p.completeLoop ord imps p.objects

end make

/-- fca/partial_context.py:80-83 `xq_aclosure`. -/
def xqAclosure (p : PCtx α β) (ordA : SetOrder β) (ordO : SetOrder α) (s : Finset β) : Py (Finset β) := do
  let oset ← p.x.coAprime (ordA.enum s)
  p.q.coOprime (ordO.enum oset)

/-- fca/algorithms/dg_basis.py:42-55 `compute_partial_dg_basis`, which is
fca/partial_context.py:85-89 `get_attribute_implications(confirmed=bg, cond=cond)`. -/
def dgBasis (p : PCtx α β) (ordA : SetOrder β) (ordO : SetOrder α) (bg : List (Imp β)) (cond : Finset β → Bool) :
    Py (List (Imp β)) :=
  _root_.dgBasis p.attributes (p.xqAclosure ordA ordO) simpleClosure bg cond

/-- fca/partial_context.py:121-124 `intents`. -/
def intents (p : PCtx α β) : Py (List (Finset β × Finset β)) :=
  p.objects.mapM fun o => do
    let xi ← p.x.objectIntent o
    let qi ← p.q.objectIntent o
    .ok (xi, qi)

end PCtx

/-! ### exploration -/

/-- `ExplorationDB` over a partial context: fca/algorithms/exploration_/exploration.py:48-60; the condition `_cond` is part
of `PDB.Env`. -/
structure PDB (α β : Type) where
  ctx : PCtx α β
  implications : List (Imp β)
  cxtImplications : List (Imp β)
  deriving DecidableEq

namespace PDB

variable {α β : Type} [DecidableEq α] [DecidableEq β] [PyName α] [PyName β]

/-- The condition on premises and the set iteration orders of one run. -/
structure Env (α β : Type) where
  cond : Finset β → Bool
  ordA : SetOrder β
  ordO : SetOrder α
  ordI : SetOrder β

/-- fca/algorithms/exploration_/exploration.py:48-60 `__init__`. -/
def make (E : Env α β) (p : PCtx α β) (bg : List (Imp β)) : Py (PDB α β) := do
  let r ← p.dgBasis E.ordA E.ordO bg E.cond
  .ok ⟨p, bg, r⟩

/-- fca/algorithms/exploration_/exploration.py:24-46: the decorators; the call is followed by the computation of the
relative basis. -/
def recompute (E : Env α β) (s : PDB α β) : PDB α β × Option PyErr :=
  match s.ctx.dgBasis E.ordA E.ordO s.implications E.cond with
  | .ok r => ({ s with cxtImplications := r }, none)
  | .error e => (s, some e)

/-- fca/algorithms/exploration_/exploration.py:68-71 `confirm_implication`. -/
def confirm (E : Env α β) (s : PDB α β) (imp : Imp β) : PDB α β × Option PyErr :=
  recompute E { s with implications := s.implications ++ [imp] }

/-- fca/algorithms/exploration_/exploration.py:62-66, 77-83 `add_example` with a partial intent. -/
def addExample (E : Env α β) (s : PDB α β) (name : α) (intent : Finset β × Finset β) : PDB α β × Option PyErr :=
  if s.implications.any fun i => !i.isRespectedPartial intent then (s, some .illegalContextModification)
  else if name ∈ s.ctx.objects then (s, some .notUniqueObjectName)
  else
    let m := s.ctx.addObjectWithIntent intent name
    match m.2 with
    | some e => ({ s with ctx := m.1 }, some e)
    | none => recompute E { s with ctx := m.1 }

/-- fca/algorithms/exploration_/exploration.py:147-150 `complete`; the relative basis is not recomputed. -/
def complete (E : Env α β) (s : PDB α β) : PDB α β × Option PyErr :=
  let m := s.ctx.complete E.ordI s.implications
  ({ s with ctx := m.1 }, m.2)

/-- Calls after one another, until the first exception. -/
def andThen (r : PDB α β × Option PyErr) (f : PDB α β → PDB α β × Option PyErr) : PDB α β × Option PyErr :=
  match r.2 with
  | some e => (r.1, some e)
  | none => f r.1

/-- fca/algorithms/exploration_/exploration.py:169-173 `confirm_implications`. -/
def confirmAll (E : Env α β) (s : PDB α β) (imps : List (Imp β)) : PDB α β × Option PyErr :=
  andThen (imps.foldl (fun r i => andThen r fun s => confirm E s i) (s, none)) (complete E)

/-- fca/algorithms/exploration_/exploration.py:175-185 `reject_implication`; `exs` are the counterexamples given by the
expert, names and partial intents. `intents[0]` of an empty list raises IndexError. -/
def reject (E : Env α β) (s : PDB α β) (imp : Imp β) (exs : List (α × (Finset β × Finset β))) : PDB α β × Option PyErr :=
  match exs with
  | [] => (s, some .indexError)
  | e :: _ =>
    if imp.isRespectedPartial e.2 then (s, some .notCounterexample)
    else andThen (exs.foldl (fun r e => andThen r fun s => addExample E s e.1 e.2) (s, none)) (complete E)

end PDB
